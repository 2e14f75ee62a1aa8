import Verif.Proofs.FriScript
import Verif.Props.Dsl
import Verif.Props.Fri

/-
C43: what a query of the script-generating FRI verifier accepts.
-/

namespace TapStark.Fri

section

variable {F : Type} [Field F] [DecidableEq F] {S C D Pf W IP : Type}
variable {B : BfField F} {M : Mmcs F S C D Pf} {cfg : Config}

theorem evenFailures_true {r : Option Bool} {rs : List (Option Bool)} (h : ∀ x ∈ rs, x = some true) :
    EvenFailures (r :: rs) ↔ r = some true := by
  have h1 : rs.count (some false) = 0 := List.count_eq_zero.mpr fun hc => by cases h _ hc
  have h2 : none ∉ rs := fun hc => by cases h _ hc
  rcases r with _ | _ | _ <;> simp [EvenFailures, h1, h2]

omit [Field F] [DecidableEq F] in
theorem RosDen.heights {K : Variable → Kind} {env : Variable → Val} {P : Expr → Prop} {ros : List (Nat × Expr)}
    {vals : List (Nat × F)} (h : RosDen B K H env P ros vals) : ros.map Prod.fst = vals.map Prod.fst := by
  unfold RosDen at h
  induction h with
  | nil => rfl
  | cons h _ ih => simp only [List.map_cons, h.1, ih]

/-- `C43` without the restriction on the blowup, and with the value in the form of the code. -/
theorem query_accepts {scfg : Cfg} {L : U31Lib} {T : TrackerLib} (hL : L.Ok scfg) (hT : T.Ok scfg) (hB : B.Ok)
    {proof : FriProof F C Pf W IP} {betas : List F}
    {openInput : Nat → Nat → IP → InputManager → Nat → Res (List (Nat × Expr) × InputManager × Nat)}
    {q idx n n0 n1 : Nat} {qp : QueryProof F Pf IP} {ros : List (Nat × Expr)} {vals : List (Nat × F)}
    {m0 m : InputManager}
    (h1 : 1 ≤ proof.commitPhaseCommits.length + cfg.logBlowup)
    (hmax : proof.commitPhaseCommits.length + cfg.logBlowup ≤ 27)
    (hidx : idx < 2 ^ (proof.commitPhaseCommits.length + cfg.logBlowup))
    (hop : qp.commitPhaseOpenings.length = proof.commitPhaseCommits.length)
    (hbe : betas.length = proof.commitPhaseCommits.length)
    (hopen : openInput q idx qp.inputProof .new n = .ok (ros, m0, n0)) (hto : OpensTo B m0 n0 ros vals)
    (hros : RosOk vals (proof.commitPhaseCommits.length + cfg.logBlowup)) (hlow : ∀ r ∈ vals, cfg.logBlowup < r.1)
    (hq : bfQueryManager B M cfg proof betas openInput q idx qp n = .ok (m, n1)) :
    ∀ N, n1 ≤ N → ∃ m' n', m.embedHintVerify N = some (m', n') ∧
      (m'.run scfg L T = some () ↔
        foldValue ((downList cfg.logBlowup proof.commitPhaseCommits.length).zip
            (proof.commitPhaseCommits.zip (qp.commitPhaseOpenings.zip betas))) idx 0 vals
          (B.gen (proof.commitPhaseCommits.length + cfg.logBlowup) ^
            revBits (proof.commitPhaseCommits.length + cfg.logBlowup) idx) = proof.finalPoly) := by
  intro N hN
  generalize hk : proof.commitPhaseCommits.length = k at *
  have hrounds : (List.range (k + cfg.logBlowup)).reverse.zip
      (proof.commitPhaseCommits.zip (qp.commitPhaseOpenings.zip betas)) =
      (downList cfg.logBlowup k).zip (proof.commitPhaseCommits.zip (qp.commitPhaseOpenings.zip betas)) := by
    rw [Nat.add_comm, range_reverse_down]
    exact zip_downList _ _ _ _ (by simp [hk, hop, hbe])
  rw [bfQueryManager, Res.bind_eq_ok] at hq
  obtain ⟨_, ho, hq⟩ := hq
  rw [hopen] at ho
  cases ho
  rw [Res.bind_eq_ok] at hq
  obtain ⟨⟨folded, m2, n2⟩, hv, hq⟩ := hq
  simp only [Res.ok.injEq, Prod.mk.injEq] at hq
  obtain ⟨rfl, rfl⟩ := hq
  rw [hk, bfVerifyQuery, Res.bind_eq_ok] at hv
  obtain ⟨⟨folded', idx', m2', n2'⟩, hl, hv⟩ := hv
  simp only at hv
  split at hv
  · cases hv
  simp only [Res.ok.injEq, Prod.mk.injEq] at hv
  obtain ⟨rfl, rfl, rfl⟩ := hv
  rw [hrounds] at hl
  -- the inputs
  obtain ⟨le1, -, hin, hnm⟩ := loop_le hl
  have le2 := InputManager.le_assignInput (B.u32 proof.finalPoly) m2' n2'
  have named := (hnm ⟨hto.names, hto.nodup⟩).assignInput (B.u32 proof.finalPoly) n2'
  obtain ⟨K, env, ha⟩ := exists_agrees (m := (m2'.assignInput (B.u32 proof.finalPoly) n2').2.1) named.nodup (by
    intro p hp
    simp only [InputManager.inputs, InputManager.assignInput, List.mem_append, List.mem_singleton] at hp
    have hfield : ∀ p ∈ m2'.inputs, (constVal p.2).isSome = true := by
      intro p hp
      rcases hin p hp with hp | ⟨x, hx⟩
      · exact hto.values p hp
      · rw [hx, hB.const]; rfl
    rcases hp with hp | hp | rfl
    · exact hfield p (List.mem_append_left _ hp)
    · exact hfield p (List.mem_append_right _ hp)
    · show (constVal (B.u32 proof.finalPoly)).isSome = true
      rw [hB.const]; rfl)
  have ha2 := ha.mono le2
  obtain ⟨P0, b0, r0⟩ := hto.built K env (ha2.mono le1)
  -- the nodes
  obtain ⟨P1, b1, s1, d1⟩ := makes_const (env := env) hB b0 (0 : F)
  obtain ⟨P2, b2, s2, d2⟩ := makes_root (env := env) hB b1 h1 hmax hidx
  obtain ⟨P3, cs, b3, s3, d3, c1, c2, c3, c4, c5⟩ := loop_ok hB hl ha2 b2 (d1.mono s2)
    ((r0.mono s1).mono s2) d2 (pow_ne_zero _ (hB.twoAdic.ne_zero hmax))
  obtain ⟨P4, b4, s4, d4⟩ := makes_input hB b3 proof.finalPoly ha
  obtain ⟨P5, b5, s5, p5, o5, k5⟩ := makes_equal hB b4 (d3.mono s4) d4
  rw [hto.hint, List.nil_append] at c1
  have hleft : leftRos ((downList cfg.logBlowup k).zip
      (proof.commitPhaseCommits.zip (qp.commitPhaseOpenings.zip betas))) ros = [] := by
    have hh := r0.heights
    refine leftRos_nil k _ ros (by simp [hk, hop, hbe]) ?_ ?_
    · have := hros.1
      rw [← List.pairwise_map (f := Prod.fst) (R := fun a b => b < a), ← hh] at this
      exact List.pairwise_map.mp this
    · intro r hr
      have : r.1 ∈ vals.map Prod.fst := hh ▸ List.mem_map_of_mem hr
      obtain ⟨v, hv, e⟩ := List.mem_map.mp this
      have h1 := hlow v hv
      have h2 := hros.2 v hv
      omega
  have hall : ∀ c ∈ cs, P5 c := fun c hc => s5 _ (s4 _ (c2 c hc).1)
  obtain ⟨m', n', e1, e2⟩ := C59_exact (n := N)
    (m := (m2'.assignInput (B.u32 proof.finalPoly) n2').2.1.setExec (Dsl.equal folded'
      (m2'.assignInput (B.u32 proof.finalPoly) n2').1 (m2'.assignInput (B.u32 proof.finalPoly) n2').2.2).1)
    (K := K) (env := env) (P := P5) (rs := cs.map fun _ => some true) hL hT (b5.mono hN).good p5
    (fun h hh => hall h (c1 ▸ hh)) ⟨ha.vals, ha.kinds, ha.nodup⟩ (fun s v hs hv => b5.prov s v hs hv) rfl k5
    (by
      show List.Forall₂ _ m2'.hint _
      rw [c1]
      refine List.forall₂_map_right_iff.mpr (List.forall₂_same.mpr fun c hc => (c2 c hc).2.2))
    (embed_multiOk (rs := cs.map fun _ => some true) (b5.mono hN).good b5.safe p5 id k5
      (fun h hh => ⟨hall h (c1 ▸ hh), by rw [(c2 h (c1 ▸ hh)).2.1]; exact id⟩) (by
        show List.Forall₂ _ m2'.hint _
        rw [c1]
        exact List.forall₂_map_right_iff.mpr (List.forall₂_same.mpr fun c hc => (c2 c hc).2.2)))
  refine ⟨m', n', e1, e2.trans ?_⟩
  rw [evenFailures_true (by simp), cmp_true]
  refine and_iff_left ?_
  intro p hp
  have hp : p ∈ (m2'.assignInput (B.u32 proof.finalPoly) n2').2.1.inputs := hp
  have main : p ∈ m2'.inputs → ∃ s, (Sub s (Dsl.equal folded'
      (m2'.assignInput (B.u32 proof.finalPoly) n2').1 (m2'.assignInput (B.u32 proof.finalPoly) n2').2.2).1 ∨
      ∃ h ∈ m2'.hint, Sub s h) ∧ s.opc = .inputMove p.1 := by
    intro hp
    rcases c5 p hp with hp | ⟨s, hs, ho⟩
    · obtain ⟨r, hr, s, hs, ho⟩ := hto.used p hp
      rcases c4 r hr with h | h
      · rw [hleft] at h; cases h
      · exact ⟨s, .inl (.arg (List.mem_cons_self ..) (hs.trans h)), ho⟩
    · refine ⟨s, ?_, ho⟩
      rcases hs with hs | ⟨c, hc, hs⟩
      · exact .inl (.arg (List.mem_cons_self ..) hs)
      · exact .inr ⟨c, c1 ▸ hc, hs⟩
  simp only [InputManager.inputs, InputManager.assignInput, List.mem_append, List.mem_singleton] at hp
  rcases hp with hp | hp | rfl
  · exact main (List.mem_append_left _ hp)
  · exact main (List.mem_append_right _ hp)
  · exact ⟨_, .inl (.arg (List.mem_cons_of_mem _ (List.mem_cons_self ..)) (.refl _)), rfl⟩

omit [DecidableEq F] in
theorem siblings_take : ∀ (idx k : Nat) (rows : List (List (List F))), siblings idx (rows.take k) = (siblings idx rows).take k
  | _, 0, _ => by simp [siblings]
  | _, _ + 1, [] => by simp [siblings]
  | idx, k + 1, r :: rows => by simp [siblings, siblings_take (idx / 2) k rows]

omit [DecidableEq F] in
theorem siblings_length : ∀ (idx : Nat) (rows : List (List (List F))), (siblings idx rows).length = rows.length
  | _, [] => rfl
  | idx, r :: rows => by simp [siblings, siblings_length (idx / 2) rows]

theorem zip3_take {α β γ : Type} : ∀ (k : Nat) (a : List α) (b : List β) (c : List γ), min b.length a.length ≤ k →
    (a.take k).zip ((b.take k).zip (c.take k)) = a.zip (b.zip c)
  | 0, a, b, c, h => by
    rcases a with _ | ⟨x, a⟩ <;> rcases b with _ | ⟨y, b⟩ <;> simp at h ⊢
  | k + 1, a, b, c, h => by
    rcases a with _ | ⟨x, a⟩ <;> rcases b with _ | ⟨y, b⟩ <;> rcases c with _ | ⟨z, c⟩ <;> simp at h ⊢
    exact zip3_take k a b c (by omega)

/-- A query looks only at the rounds that have an opening; with a larger blowup in place of the others it makes the same
manager. -/
theorem bfQueryManager_cut {proof : FriProof F C Pf W IP} {betas : List F}
    {openInput : Nat → Nat → IP → InputManager → Nat → Res (List (Nat × Expr) × InputManager × Nat)}
    {q idx n : Nat} {qp : QueryProof F Pf IP} {out : InputManager × Nat}
    (h : bfQueryManager B M cfg proof betas openInput q idx qp n = .ok out) :
    let k := min qp.commitPhaseOpenings.length proof.commitPhaseCommits.length
    bfQueryManager B M { cfg with debug := false, logBlowup := cfg.logBlowup + (proof.commitPhaseCommits.length - k) }
        { proof with commitPhaseCommits := proof.commitPhaseCommits.take k } (betas.take k) openInput q idx
        { qp with commitPhaseOpenings := qp.commitPhaseOpenings.take k } n = .ok out := by
  intro k
  have hk : k ≤ proof.commitPhaseCommits.length := Nat.min_le_right ..
  have htop : (proof.commitPhaseCommits.take k).length + (cfg.logBlowup + (proof.commitPhaseCommits.length - k)) =
      proof.commitPhaseCommits.length + cfg.logBlowup := by
    rw [List.length_take]; omega
  rw [← h]
  rw [bfQueryManager, Res.bind_eq_ok] at h
  obtain ⟨⟨ros, m0, n0⟩, h1, h⟩ := h
  rw [Res.bind_eq_ok] at h
  obtain ⟨⟨e, m1, n1⟩, h2, -⟩ := h
  rw [bfVerifyQuery, Res.bind_eq_ok] at h2
  obtain ⟨⟨e', idx', m1', n1'⟩, h2, h3⟩ := h2
  simp only at h3
  split at h3
  · cases h3
  rename_i hd
  unfold bfQueryManager bfVerifyQuery
  simp only [htop, zip3_take k _ _ _ (Nat.le_refl _), h1, Res.bind_ok, h2, if_neg hd, Bool.false_eq_true, false_and,
    if_false]

/-- C43: a query is accepted, hint checks included, iff the folded value of the query is the final value: the chain of
lines through the own value and the opened sibling, from the point of the query, each time at the square of the previous
point.  There may be more openings than commitments; there may be fewer, as long as every reduced opening belongs to a
round that has one. -/
theorem C43_query_accepts {scfg : Cfg} {L : U31Lib} {T : TrackerLib} (hL : L.Ok scfg) (hT : T.Ok scfg) (hB : B.Ok)
    {proof : FriProof F C Pf W IP} {betas : List F}
    {openInput : Nat → Nat → IP → InputManager → Nat → Res (List (Nat × Expr) × InputManager × Nat)}
    {q idx n n0 n1 : Nat} {qp : QueryProof F Pf IP} {ros : List (Nat × Expr)} {vals : List (Nat × F)}
    {m0 m : InputManager}
    (hblow : 1 ≤ cfg.logBlowup) (hmax : proof.commitPhaseCommits.length + cfg.logBlowup ≤ 27)
    (hidx : idx < 2 ^ (proof.commitPhaseCommits.length + cfg.logBlowup))
    (hbe : betas.length = proof.commitPhaseCommits.length)
    (hopen : openInput q idx qp.inputProof .new n = .ok (ros, m0, n0)) (hto : OpensTo B m0 n0 ros vals)
    (hros : RosOk vals (proof.commitPhaseCommits.length + cfg.logBlowup))
    (hlow : ∀ r ∈ vals, cfg.logBlowup + (proof.commitPhaseCommits.length - qp.commitPhaseOpenings.length) < r.1)
    (hq : bfQueryManager B M cfg proof betas openInput q idx qp n = .ok (m, n1)) :
    ∀ N, n1 ≤ N → ∃ m' n', m.embedHintVerify N = some (m', n') ∧
      (m'.run scfg L T = some () ↔
        foldChain (roAt vals) (proof.commitPhaseCommits.length + cfg.logBlowup)
          (B.gen (proof.commitPhaseCommits.length + cfg.logBlowup) ^
            revBits (proof.commitPhaseCommits.length + cfg.logBlowup) idx) 0
          (betas.zip (siblings idx (qp.commitPhaseOpenings.map Prod.fst))) = proof.finalPoly) := by
  intro N hN
  have hq := bfQueryManager_cut hq
  generalize hk : min qp.commitPhaseOpenings.length proof.commitPhaseCommits.length = k at hq
  have hlen : (proof.commitPhaseCommits.take k).length = k := by rw [List.length_take]; omega
  have htop : (proof.commitPhaseCommits.take k).length + (cfg.logBlowup + (proof.commitPhaseCommits.length - k)) =
      proof.commitPhaseCommits.length + cfg.logBlowup := by omega
  obtain ⟨m', n', h1, h2⟩ := query_accepts (M := M)
    (cfg := { cfg with debug := false, logBlowup := cfg.logBlowup + (proof.commitPhaseCommits.length - k) })
    (proof := { proof with commitPhaseCommits := proof.commitPhaseCommits.take k }) (betas := betas.take k)
    (qp := { qp with commitPhaseOpenings := qp.commitPhaseOpenings.take k }) hL hT hB
    (by simp only [htop]; omega) (by simp only [htop]; exact hmax) (by simp only [htop]; exact hidx)
    (by simp only [List.length_take]; omega) (by simp only [List.length_take]; omega) hopen hto
    (by simp only [htop]; exact hros) (fun r hr => by have := hlow r hr; simp only; omega) hq N hN
  refine ⟨m', n', h1, ?_⟩
  simp only at h2
  rw [h2, htop, hlen, foldValue_chain (by omega) _ _ _ _ _ _ _ _ hlen (by simp only [List.length_take]; omega)
    (by simp only [List.length_take]; omega) (by rw [show cfg.logBlowup + (proof.commitPhaseCommits.length - k) + k =
      proof.commitPhaseCommits.length + cfg.logBlowup by omega]; exact hros),
    show cfg.logBlowup + (proof.commitPhaseCommits.length - k) + k = proof.commitPhaseCommits.length + cfg.logBlowup by omega,
    List.map_take, siblings_take,
    show (betas.take k).zip ((siblings idx (qp.commitPhaseOpenings.map Prod.fst)).take k) =
      betas.zip (siblings idx (qp.commitPhaseOpenings.map Prod.fst)) from by
        rw [List.zip_eq_zip_take_min (l₁ := betas), siblings_length, List.length_map, hbe, Nat.min_comm, hk]]

/-- C43: the query script can be generated whenever every opened row has two entries and its opening is accepted. -/
theorem C43_query_built (hB : B.Ok) {proof : FriProof F C Pf W IP} {betas : List F}
    {openInput : Nat → Nat → IP → InputManager → Nat → Res (List (Nat × Expr) × InputManager × Nat)}
    {q idx n n0 : Nat} {qp : QueryProof F Pf IP} {ros : List (Nat × Expr)} {m0 : InputManager}
    (hmax : proof.commitPhaseCommits.length + cfg.logBlowup ≤ 27)
    (hidx : idx < 2 ^ (proof.commitPhaseCommits.length + cfg.logBlowup))
    (hop : qp.commitPhaseOpenings.length = proof.commitPhaseCommits.length)
    (hbe : betas.length = proof.commitPhaseCommits.length)
    (hopen : openInput q idx qp.inputProof .new n = .ok (ros, m0, n0))
    (hrows : ∀ r ∈ proof.commitPhaseCommits.zip qp.commitPhaseOpenings, ∃ a b, r.2.1 = [[a, b]] ∧
      M.verifyBatch q [[a, b]] r.2.2 r.1 = some true) :
    ∃ out, bfQueryManager B M cfg proof betas openInput q idx qp n = .ok out := by
  have hz : B.gen (proof.commitPhaseCommits.length + cfg.logBlowup) ^
      revBits (proof.commitPhaseCommits.length + cfg.logBlowup) idx ≠ 0 := pow_ne_zero _ (hB.twoAdic.ne_zero hmax)
  generalize hk : proof.commitPhaseCommits.length = k at *
  have hrounds : (List.range (k + cfg.logBlowup)).reverse.zip
      (proof.commitPhaseCommits.zip (qp.commitPhaseOpenings.zip betas)) =
      (downList cfg.logBlowup k).zip (proof.commitPhaseCommits.zip (qp.commitPhaseOpenings.zip betas)) := by
    rw [Nat.add_comm, range_reverse_down]
    exact zip_downList _ _ _ _ (by simp [hk, hop, hbe])
  obtain ⟨⟨e, idx', m', n'⟩, hl⟩ := loop_total hB (M := M) (q := q)
    (rounds := (downList cfg.logBlowup k).zip (proof.commitPhaseCommits.zip (qp.commitPhaseOpenings.zip betas)))
    idx (Dsl.constant (B.u32 0) n0).1
    (Dsl.indexToRou B.consts (Dsl.reverseBitsLen idx (k + cfg.logBlowup) (Dsl.constant (B.u32 0) n0).2).1
      (k + cfg.logBlowup) (Dsl.reverseBitsLen idx (k + cfg.logBlowup) (Dsl.constant (B.u32 0) n0).2).2).1 ros m0
    (Dsl.indexToRou B.consts (Dsl.reverseBitsLen idx (k + cfg.logBlowup) (Dsl.constant (B.u32 0) n0).2).1
      (k + cfg.logBlowup) (Dsl.reverseBitsLen idx (k + cfg.logBlowup) (Dsl.constant (B.u32 0) n0).2).2).2 hz (by
    intro r hr
    have h1 := List.of_mem_zip hr
    have h2 := h1.2
    obtain ⟨i, hi, e⟩ := List.getElem_of_mem h2
    simp only [List.getElem_zip] at e
    refine hrows (r.2.1, r.2.2.1) ?_
    simp only [List.length_zip] at hi
    refine List.mem_iff_getElem.mpr ⟨i, by simp only [List.length_zip]; omega, ?_⟩
    rw [List.getElem_zip, ← e])
  have hle := (loop_le hl).2.1
  have hlen : ((downList cfg.logBlowup k).zip (proof.commitPhaseCommits.zip (qp.commitPhaseOpenings.zip betas))).length
      = k := by
    have hd : (downList cfg.logBlowup k).length = k := by
      have := congrArg List.length (range_reverse_down cfg.logBlowup k)
      simp at this
      omega
    simp [hd, hk, hop, hbe]
  have hlt : idx' < cfg.blowup := by
    rw [hle, hlen, Config.blowup]
    exact Nat.div_lt_of_lt_mul (by rw [← pow_add]; exact hidx)
  have hv : bfVerifyQuery B M cfg proof.commitPhaseCommits idx q qp.commitPhaseOpenings betas ros (k + cfg.logBlowup) m0
      n0 = .ok (e, m', n') := by
    unfold bfVerifyQuery
    simp only [hrounds]
    rw [Res.bind_eq_ok]
    exact ⟨_, hl, if_neg fun h => h.2 hlt⟩
  unfold bfQueryManager
  simp only [hopen, Res.bind_ok, hk, hv]
  exact ⟨_, rfl⟩

/-- C43: if the native verifier runs through a query, and the opened entry of the first round is the reduced opening of
the largest height (which the native verifier does not compare, see C38), the script accepts iff the native value is the
final value. -/
theorem C43_native {scfg : Cfg} {L : U31Lib} {T : TrackerLib} (hL : L.Ok scfg) (hT : T.Ok scfg) (hB : B.Ok)
    {proof : FriProof F C Pf W IP} {betas : List F}
    {openInput : Nat → Nat → IP → InputManager → Nat → Res (List (Nat × Expr) × InputManager × Nat)}
    {q idx n n0 n1 : Nat} {qp : QueryProof F Pf IP} {ros : List (Nat × Expr)} {vals : List (Nat × F)}
    {m0 m : InputManager} {v : F}
    (hblow : 1 ≤ cfg.logBlowup) (hmax : proof.commitPhaseCommits.length + cfg.logBlowup ≤ 27)
    (hidx : idx < 2 ^ (proof.commitPhaseCommits.length + cfg.logBlowup))
    (hop : qp.commitPhaseOpenings.length = proof.commitPhaseCommits.length)
    (hbe : betas.length = proof.commitPhaseCommits.length)
    (hopen : openInput q idx qp.inputProof .new n = .ok (ros, m0, n0)) (hto : OpensTo B m0 n0 ros vals)
    (hros : RosOk vals (proof.commitPhaseCommits.length + cfg.logBlowup)) (hlow : ∀ r ∈ vals, cfg.logBlowup < r.1)
    (hq : bfQueryManager B M cfg proof betas openInput q idx qp n = .ok (m, n1))
    (htop : ∀ o ∈ qp.commitPhaseOpenings.head?, (o.1.getD 0 []).getD (idx % 2) 0 =
      roAt vals (proof.commitPhaseCommits.length + cfg.logBlowup))
    (hnat : verifyQuery B.gen M cfg proof.commitPhaseCommits idx q qp.commitPhaseOpenings betas vals
      (proof.commitPhaseCommits.length + cfg.logBlowup) = .ok v) :
    ∀ N, n1 ≤ N → ∃ m' n', m.embedHintVerify N = some (m', n') ∧
      (m'.run scfg L T = some () ↔ v = proof.finalPoly) := by
  intro N hN
  obtain ⟨m', n', h1, h2⟩ := C43_query_accepts (M := M) hL hT hB hblow hmax hidx hbe hopen hto hros
    (fun r hr => by have := hlow r hr; omega) hq N hN
  refine ⟨m', n', h1, ?_⟩
  rw [h2]
  generalize hk : proof.commitPhaseCommits.length = k at *
  have hrounds : (List.range (k + cfg.logBlowup)).reverse.zip
      (proof.commitPhaseCommits.zip (qp.commitPhaseOpenings.zip betas)) =
      (downList cfg.logBlowup k).zip (proof.commitPhaseCommits.zip (qp.commitPhaseOpenings.zip betas)) := by
    rw [Nat.add_comm, range_reverse_down]
    exact zip_downList _ _ _ _ (by simp [hk, hop, hbe])
  rw [verifyQuery, Res.bind_eq_ok] at hnat
  obtain ⟨⟨w, idx'⟩, hl, hv⟩ := hnat
  simp only at hv
  split at hv
  · cases hv
  cases hv
  rw [hrounds, Nat.add_comm k] at hl
  rw [Nat.add_comm k] at hmax hros htop ⊢
  rw [native_chain hB.twoAdic k _ _ _ _ _ _ _ _ hk hop hbe hmax (Nat.le_refl _) hros
    (fun _ o ho => by rw [htop o ho, zero_add]) hl]

/-- C43: one manager per query, made from that query. -/
theorem C43_one_manager_per_query {proof : FriProof F C Pf W IP} {betas : List F}
    {openInput : Nat → Nat → IP → InputManager → Nat → Res (List (Nat × Expr) × InputManager × Nat)} :
    ∀ {queries : List ((Nat × Nat) × QueryProof F Pf IP)} {n n' : Nat} {ms : List InputManager},
    bfVerifyChallenges B M cfg proof betas openInput queries n = .ok (ms, n') →
    List.Forall₂ (fun qr m => ∃ k k', bfQueryManager B M cfg proof betas openInput qr.1.1 qr.1.2 qr.2 k = .ok (m, k'))
      queries ms := by
  intro queries
  induction queries with
  | nil =>
    intro n n' ms h
    rw [bfVerifyChallenges] at h
    cases h
    exact .nil
  | cons qr queries ih =>
    intro n n' ms h
    obtain ⟨⟨q, i⟩, qp⟩ := qr
    rw [bfVerifyChallenges, Res.bind_eq_ok] at h
    obtain ⟨⟨m, k⟩, h1, h⟩ := h
    rw [Res.bind_eq_ok] at h
    obtain ⟨⟨ms', k'⟩, h2, h⟩ := h
    cases h
    exact .cons ⟨n, k, h1⟩ (ih h2)

/-- C43, one folding step at position `idx` of a layer of `2^(k+1)` values: with the folded value at its place in the row
and the sibling in the other, the expression has the value of the native fold, and the check of the inverse holds. -/
theorem C43_fold_step {K : Variable → Kind} {env : Variable → Val} {m m' : InputManager} {n n' : Nat} {P : Expr → Prop}
    (hB : B.Ok) (h : Built K H m n P) {folded sibling x beta next : Expr} {a b β : F} {idx k : Nat} (hk : k + 1 ≤ 27)
    (hf : Den B K H env P folded a) (hs : Den B K H env P sibling b)
    (hx : Den B K H env P x (B.gen (k + 1) ^ revBits (k + 1) idx)) (hb : Den B K H env P beta β)
    (hr : foldRowExpr B folded sibling x (B.gen (k + 1) ^ revBits (k + 1) idx) (1 - idx % 2) beta m n =
      some (next, m', n')) (ha : m'.Agrees K env) :
    ∃ v check, foldRow B.gen (idx / 2) k β (if idx % 2 = 0 then [a, b] else [b, a]) = some v ∧
      eval env next = some [B.val v] ∧ m'.hint = m.hint ++ [check] ∧ IsCheck K env check (some true) := by
  have hz : B.gen (k + 1) ^ revBits (k + 1) idx ≠ 0 := pow_ne_zero _ (hB.twoAdic.ne_zero hk)
  obtain ⟨P', check, -, -, d, c1, -, c2, -⟩ := foldRowExpr_ok hB h hf hs hx hb hz hr ha
  have hz' : B.gen (k + 1) ^ revBits k (idx / 2) ≠ 0 := pow_ne_zero _ (hB.twoAdic.ne_zero hk)
  refine ⟨lineAt (B.gen (k + 1) ^ revBits (k + 1) idx) β a b, check, ?_, d.eval, c1, c2.2⟩
  rw [own_point hB.twoAdic hk]
  obtain ⟨v, hv⟩ : ∃ v, foldRow B.gen (idx / 2) k β (if idx % 2 = 0 then [a, b] else [b, a]) = some v := by
    split <;> exact ⟨_, foldRow_eq hB.twoAdic hk _ _ _ _⟩
  obtain ⟨c, d, e, hv'⟩ := foldRow_some hB.twoAdic hk hv
  rw [hv, hv']
  split at e <;> rename_i hi <;> cases e <;> simp only [hi, if_true, if_false]
  rw [lineAt_neg hz' hB.twoAdic.two_ne]

theorem foldRow_line {gen : Nat → F} {N : Nat} (h : TwoAdic gen N) {k : Nat} (hk : k + 1 ≤ N) (i : Nat) (β a b : F) :
    foldRow gen i k β [a, b] = some (lineAt (gen (k + 1) ^ revBits k i) β a b) := by
  obtain ⟨c, d, e, hv⟩ := foldRow_some h hk (foldRow_eq h hk i β a b)
  cases e
  rw [foldRow_eq h hk, hv]

/-! ### Reduced openings given as inputs -/

/-- Reduced openings that are inputs of the manager. -/
def openList (B : BfField F) : List (Nat × F) → InputManager → Nat → List (Nat × Expr) × InputManager × Nat
  | [], m, n => ([], m, n)
  | (h, v) :: rest, m, n =>
    let (e, m, n) := m.assignInput (B.u32 v) n
    let (l, m, n) := openList B rest m n
    ((h, e) :: l, m, n)

omit [DecidableEq F] in
theorem openList_le (hB : B.Ok) : ∀ (vals : List (Nat × F)) (m : InputManager) (n : Nat), m.Named →
    m.Le (openList B vals m n).2.1 ∧ (openList B vals m n).2.1.Named ∧ (openList B vals m n).2.1.hint = m.hint ∧
    (∀ p ∈ (openList B vals m n).2.1.inputs, p ∈ m.inputs ∨ ((constVal p.2).isSome = true ∧
      ∃ r ∈ (openList B vals m n).1, ∃ s, Sub s r.2 ∧ s.opc = .inputMove p.1)) := by
  intro vals
  induction vals with
  | nil => exact fun m n h => ⟨.refl m, h, rfl, fun p hp => .inl hp⟩
  | cons v vals ih =>
    intro m n h
    obtain ⟨k, v⟩ := v
    obtain ⟨i1, i2, i3, i4⟩ := ih (m.assignInput (B.u32 v) n).2.1 (m.assignInput (B.u32 v) n).2.2 (h.assignInput ..)
    refine ⟨(InputManager.le_assignInput ..).trans i1, i2, i3, ?_⟩
    intro p hp
    rcases i4 p hp with hp | ⟨hp, r, hr, s, hs⟩
    · simp only [InputManager.inputs, InputManager.assignInput, List.mem_append, List.mem_singleton] at hp
      rcases hp with hp | hp | rfl
      · exact .inl (List.mem_append_left _ hp)
      · exact .inl (List.mem_append_right _ hp)
      · refine .inr ⟨by rw [hB.const]; rfl, _, List.mem_cons_self .., _, .refl _, rfl⟩
    · exact .inr ⟨hp, r, List.mem_cons_of_mem _ hr, s, hs⟩

omit [DecidableEq F] in
theorem openList_den (hB : B.Ok) {K : Variable → Kind} {env : Variable → Val} : ∀ (vals : List (Nat × F))
    (m : InputManager) (n : Nat) (P : Expr → Prop), Built K H m n P → (openList B vals m n).2.1.Agrees K env →
    ∃ P', Built K H (openList B vals m n).2.1 (openList B vals m n).2.2 P' ∧ (∀ s, P s → P' s) ∧
      RosDen B K H env P' (openList B vals m n).1 vals := by
  intro vals
  induction vals with
  | nil => exact fun m n P h _ => ⟨P, h, fun _ h => h, .nil⟩
  | cons v vals ih =>
    intro m n P h ha
    obtain ⟨k, v⟩ := v
    have hn : m.Named := ⟨h.names, h.nodup⟩
    obtain ⟨i1, -⟩ := openList_le hB vals (m.assignInput (B.u32 v) n).2.1 (m.assignInput (B.u32 v) n).2.2
      (hn.assignInput ..)
    obtain ⟨P1, b1, s1, d1⟩ := makes_input hB h v (ha.mono i1)
    obtain ⟨P2, b2, s2, d2⟩ := ih _ _ P1 b1 ha
    exact ⟨P2, b2, fun s hs => s2 s (s1 s hs), .cons ⟨rfl, d1.mono s2⟩ d2⟩

omit [DecidableEq F] in
theorem openList_opensTo (hB : B.Ok) (vals : List (Nat × F)) (n : Nat) :
    OpensTo B (openList B vals .new n).2.1 (openList B vals .new n).2.2 (openList B vals .new n).1 vals := by
  have hn : InputManager.new.Named :=
    ⟨by simp [InputManager.new, InputManager.inputs], by simp [InputManager.new, InputManager.inputs]⟩
  obtain ⟨-, i2, i3, i4⟩ := openList_le hB vals .new n hn
  have hno : ∀ p, p ∉ InputManager.new.inputs := by simp [InputManager.new, InputManager.inputs]
  refine ⟨fun K env ha => ?_, fun p hp => ?_, i2.names, i2.nodup, i3, fun p hp => ?_⟩
  · obtain ⟨P, h1, -, h2⟩ := openList_den hB vals .new n _ (Built.new K n) ha
    exact ⟨P, h1, h2⟩
  · exact ((i4 p hp).resolve_left (hno p)).1
  · exact ((i4 p hp).resolve_left (hno p)).2

end

/-! ### Instances -/

theorem native_two {F C S D Pf : Type} [Field F] [DecidableEq F] {gen : Nat → F} {M : Mmcs F S C D Pf} {r s t u v : F}
    {c c' : C} {π π' : Pf} (h1 : foldRow gen 0 1 1 [s, r] = some t) (h2 : foldRow gen 0 0 1 [t, u] = some v)
    (h3 : M.verifyBatch 0 [[s, r]] π c = some true) (h4 : M.verifyBatch 0 [[t, u]] π' c' = some true) :
    verifyQuery gen M ⟨0, 1, 0, true⟩ [c, c'] 1 0 [([[s, r]], π), ([[t, u]], π')] [1, 1] [(2, r), (1, 0)] 2 = .ok v := by
  simp [verifyQuery, queryLoop, List.range_succ, nextRo, h1, h2, h3, h4, Config.blowup]

theorem native_panics {F C S D Pf : Type} [Field F] [DecidableEq F] {gen : Nat → F} {M : Mmcs F S C D Pf}
    {r r' s t u v β β' : F} {c c' : C} {π π' : Pf} (h1 : foldRow gen 2 2 β [s, r] = some v) (h2 : ¬ v + r' = t)
    (h3 : M.verifyBatch 0 [[s, r]] π c = some true) :
    verifyQuery gen M ⟨1, 1, 0, true⟩ [c, c'] 5 0 [([[s, r]], π), ([[t, u]], π')] [β, β'] [(3, r), (2, r')] 3 =
      .panic := by
  simp [verifyQuery, queryLoop, List.range_succ, nextRo, h1, h2, h3, Res.ofOption]

section

variable {scfg : Cfg} {L : U31Lib} {T : TrackerLib}

/-- A commitment scheme that accepts every opening. -/
def anyMmcs : Mmcs BB Unit Unit Unit Unit where
  commitMatrix _ _ := none
  getMatrix _ := none
  openBatch _ _ _ := none
  verifyBatch _ _ _ _ := some true

/-- A proof with two rounds and the final value `w`. -/
def twoRounds (w : BB) : FriProof BB Unit Unit Unit (List (Nat × BB)) := ⟨[(), ()], [], w, ()⟩

/-- A query with two reduced openings and two opened rows. -/
def twoRows (h : Nat) (r r' s₀ s₁ t₀ t₁ : BB) : QueryProof BB Unit (List (Nat × BB)) :=
  ⟨[(h + 1, r), (h, r')], [([[s₀, s₁]], ()), ([[t₀, t₁]], ())]⟩

/-- The reduced openings are inputs of the manager. -/
def openAll (_ _ : Nat) (ip : List (Nat × BB)) (m : InputManager) (n : Nat) :
    Res (List (Nat × Expr) × InputManager × Nat) := .ok (openList bbField ip m n)

theorem twoRounds_built (β β' w r r' s₀ s₁ t₀ t₁ : BB) (b : Nat) (hb : 2 + b ≤ 27) (idx : Nat) (hi : idx < 2 ^ (2 + b)) :
    ∃ m n, bfQueryManager bbField anyMmcs ⟨b, 1, 0, true⟩ (twoRounds w) [β, β'] openAll 0 idx
      (twoRows (b + 1) r r' s₀ s₁ t₀ t₁) 0 = .ok (m, n) := by
  obtain ⟨⟨m, n⟩, h⟩ := C43_query_built (M := anyMmcs) (cfg := ⟨b, 1, 0, true⟩) bbField_ok (proof := twoRounds w)
    (betas := [β, β']) (openInput := openAll) (q := 0) (idx := idx) (n := 0)
    (qp := twoRows (b + 1) r r' s₀ s₁ t₀ t₁) hb hi rfl rfl rfl (by
      intro x hx
      simp only [twoRounds, twoRows, List.zip_cons_cons, List.zip_nil_right, List.mem_cons, List.not_mem_nil,
        or_false] at hx
      rcases hx with rfl | rfl
      · exact ⟨_, _, rfl, rfl⟩
      · exact ⟨_, _, rfl, rfl⟩)
  exact ⟨m, n, h⟩

theorem twoRows_ok (b : Nat) (r r' s₀ s₁ t₀ t₁ : BB) :
    RosOk (twoRows (b + 1) r r' s₀ s₁ t₀ t₁).inputProof (2 + b) ∧
      ∀ x ∈ (twoRows (b + 1) r r' s₀ s₁ t₀ t₁).inputProof, b < x.1 := by
  simp only [RosOk, twoRows]
  refine ⟨⟨by simp, ?_⟩, ?_⟩ <;> intro x hx <;> simp only [List.mem_cons, List.not_mem_nil, or_false] at hx <;>
    rcases hx with rfl | rfl <;> simp only <;> omega

/-- A query of two rounds at index 5 of a layer of 8 values. -/
theorem C43_instance (hL : L.Ok scfg) (hT : T.Ok scfg) (β β' w r r' s₀ s₁ t₀ t₁ : BB) :
    ∃ m n m' n', bfQueryManager bbField anyMmcs ⟨1, 1, 0, true⟩ (twoRounds w) [β, β'] openAll 0 5
        (twoRows 2 r r' s₀ s₁ t₀ t₁) 0 = .ok (m, n) ∧ m.embedHintVerify n = some (m', n') ∧
      (m'.run scfg L T = some () ↔
        lineAt ((bbGen 3 ^ 5) ^ 2) β' (lineAt (bbGen 3 ^ 5) β r s₀ + r') t₁ = w) := by
  obtain ⟨m, n, h⟩ := twoRounds_built β β' w r r' s₀ s₁ t₀ t₁ 1 (by decide) 5 (by decide)
  obtain ⟨m', n', h1, h2⟩ := C43_query_accepts (M := anyMmcs) hL hT bbField_ok (cfg := ⟨1, 1, 0, true⟩)
    (proof := twoRounds w) (betas := [β, β']) (openInput := openAll) (q := 0) (idx := 5) (n := 0)
    (qp := twoRows 2 r r' s₀ s₁ t₀ t₁) (vals := (twoRows 2 r r' s₀ s₁ t₀ t₁).inputProof)
    (ros := (openList bbField (twoRows 2 r r' s₀ s₁ t₀ t₁).inputProof .new 0).1)
    (m0 := (openList bbField (twoRows 2 r r' s₀ s₁ t₀ t₁).inputProof .new 0).2.1)
    (n0 := (openList bbField (twoRows 2 r r' s₀ s₁ t₀ t₁).inputProof .new 0).2.2)
    (by decide) (by simp [twoRounds]) (by simp [twoRounds]) rfl rfl (openList_opensTo bbField_ok _ 0)
    (twoRows_ok 1 r r' s₀ s₁ t₀ t₁).1 (twoRows_ok 1 r r' s₀ s₁ t₀ t₁).2 h n (Nat.le_refl _)
  refine ⟨m, n, m', n', h, h1, h2.trans ?_⟩
  rw [show bbField.gen = bbGen from rfl, show revBits ((twoRounds w).commitPhaseCommits.length + 1) 5 = 5 from rfl]
  simp [twoRounds, twoRows, siblings, foldChain, roAt]

theorem noBlowup_native :
    verifyQuery bbField.gen anyMmcs ⟨0, 1, 0, true⟩ [(), ()] 1 0 (twoRows 1 2 0 2 2 2 0).commitPhaseOpenings [1, 1]
        (twoRows 1 2 0 2 2 2 0).inputProof 2 = .ok 2 := by
  have h0 : (2 : BB) / 2 = 1 := div_self bbGen_twoAdic.two_ne
  have h1 : foldRow bbField.gen 0 1 1 [2, 2] = some 2 := by
    rw [foldRow_line bbField_ok.twoAdic (by decide)]
    simp [lineAt, add_div, h0, one_add_one_eq_two]
  have h2 : foldRow bbField.gen 0 0 1 [2, 0] = some 2 := by
    rw [foldRow_line bbField_ok.twoAdic (by decide)]
    simp [lineAt, revBits, h0, one_add_one_eq_two]
  exact native_two h1 h2 rfl rfl

theorem noBlowup_value :
    foldValue ((downList 0 2).zip ([(), ()].zip ((twoRows 1 2 0 2 2 2 0).commitPhaseOpenings.zip [1, 1]))) 1 0
    (twoRows 1 2 0 2 2 2 0).inputProof (bbGen 2 ^ revBits 2 1) = 0 := by
  have hg : bbGen 2 ^ 2 = -1 := (bbGen_twoAdic.sq 1 (by decide)).trans bbGen_twoAdic.one
  rw [show revBits 2 1 = 2 from rfl, hg]
  have h0 : (2 : BB) / 2 = 1 := div_self bbGen_twoAdic.two_ne
  simp [div_neg, add_div, h0, one_add_one_eq_two, downList, foldValue, twoRows, nextRo, lineAt]

/-- C43 fails without blowup: the point of the last round is not squared.  At index 1 of a layer of four, with the
values 2, 2 in the first row and 0, 2 in the second, the value at `β' = 1` is 2, and the native verifier computes it; the
script accepts only 0. -/
theorem C43_violated_no_blowup (hL : L.Ok scfg) (hT : T.Ok scfg) (w : BB) :
    verifyQuery bbField.gen anyMmcs ⟨0, 1, 0, true⟩ [(), ()] 1 0 (twoRows 1 2 0 2 2 2 0).commitPhaseOpenings [1, 1]
        (twoRows 1 2 0 2 2 2 0).inputProof 2 = .ok 2 ∧
    ∃ m n m' n', bfQueryManager bbField anyMmcs ⟨0, 1, 0, true⟩ (twoRounds w) [1, 1] openAll 0 1
        (twoRows 1 2 0 2 2 2 0) 0 = .ok (m, n) ∧ m.embedHintVerify n = some (m', n') ∧
      (m'.run scfg L T = some () ↔ w = 0) := by
  refine ⟨noBlowup_native, ?_⟩
  obtain ⟨m, n, h⟩ := twoRounds_built 1 1 w 2 0 2 2 2 0 0 (by decide) 1 (by decide)
  obtain ⟨m', n', h1, h2⟩ := query_accepts (M := anyMmcs) hL hT bbField_ok (cfg := ⟨0, 1, 0, true⟩)
    (proof := twoRounds w) (betas := [1, 1]) (openInput := openAll) (q := 0) (idx := 1) (n := 0)
    (qp := twoRows 1 2 0 2 2 2 0) (vals := (twoRows 1 2 0 2 2 2 0).inputProof)
    (ros := (openList bbField (twoRows 1 2 0 2 2 2 0).inputProof .new 0).1)
    (m0 := (openList bbField (twoRows 1 2 0 2 2 2 0).inputProof .new 0).2.1)
    (n0 := (openList bbField (twoRows 1 2 0 2 2 2 0).inputProof .new 0).2.2)
    (by simp [twoRounds]) (by simp [twoRounds]) (by simp [twoRounds]) rfl rfl rfl (openList_opensTo bbField_ok _ 0)
    (twoRows_ok 0 2 0 2 2 2 0).1 (twoRows_ok 0 2 0 2 2 2 0).2 h n (Nat.le_refl _)
  refine ⟨m, n, m', n', h, h1, h2.trans ?_⟩
  have hl : (twoRounds w).commitPhaseCommits = [(), ()] := rfl
  rw [hl, show bbField.gen = bbGen from rfl, show ([(), ()] : List Unit).length = 2 from rfl, Nat.add_zero, noBlowup_value]
  exact eq_comm

/-- C43 fails for the other entries of the opened rows: the native verifier panics on a query whose second row does not
contain the folded value, the script of the query never reads that entry and accepts. -/
theorem C43_violated_own_entries (hL : L.Ok scfg) (hT : T.Ok scfg) (β β' r r' s t₀ t₁ : BB)
    (ht : t₀ ≠ lineAt (bbGen 3 ^ 5) β r s + r') :
    verifyQuery bbField.gen anyMmcs ⟨1, 1, 0, true⟩ [(), ()] 5 0 (twoRows 2 r r' s r t₀ t₁).commitPhaseOpenings [β, β']
        (twoRows 2 r r' s r t₀ t₁).inputProof 3 = .panic ∧
    ∃ w m n m' n', bfQueryManager bbField anyMmcs ⟨1, 1, 0, true⟩ (twoRounds w) [β, β'] openAll 0 5
        (twoRows 2 r r' s r t₀ t₁) 0 = .ok (m, n) ∧ m.embedHintVerify n = some (m', n') ∧
      m'.run scfg L T = some () := by
  constructor
  · have hx : bbGen 3 ^ revBits 2 2 ≠ 0 := pow_ne_zero _ (bbGen_twoAdic.ne_zero (by decide))
    have hf : foldRow bbField.gen 2 2 β [s, r] = some (lineAt (bbGen 3 ^ 5) β r s) := by
      have e : bbGen 3 ^ 5 = -(bbGen 3 ^ revBits 2 2) := by
        rw [show (5 : Nat) = revBits (2 + 1) (2 * 2 + 1) from rfl, bbGen_twoAdic.point_odd (by decide)]
      rw [foldRow_line bbField_ok.twoAdic (by decide), e, lineAt_neg hx bbGen_twoAdic.two_ne]
      rfl
    have hne : ¬ lineAt (bbGen 3 ^ 5) β r s + r' = t₀ := fun h => ht h.symm
    exact native_panics hf hne rfl
  · obtain ⟨m, n, m', n', h1, h2, h3⟩ := C43_instance hL hT β β'
      (lineAt ((bbGen 3 ^ 5) ^ 2) β' (lineAt (bbGen 3 ^ 5) β r s + r') t₁) r r' s r t₀ t₁
    exact ⟨_, m, n, m', n', h1, h2, h3.mpr rfl⟩

end

end TapStark.Fri
