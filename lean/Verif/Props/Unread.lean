import Verif.Props.PcsScript

/-!
C79, C82: queries with so few openings that no round reads the reduced openings.  The opened values stay on the stack of the
script, so that it fails.
-/

namespace TapStark

/-- The manager with further inputs in front. -/
def InputManager.front (iv ih : List (Variable × List Nat)) (m : InputManager) : InputManager :=
  { m with inputVar := iv ++ m.inputVar, inputHint := ih ++ m.inputHint }

namespace Fri

section
variable {F : Type} [Field F] [DecidableEq F] {S C D Pf W IP : Type}
variable {B : BfField F} {M : Mmcs F S C D Pf} {cfg : Config} {iv ih : List (Variable × List Nat)}

theorem assignInput_front (v : List Nat) (m : InputManager) (n : Nat) :
    (m.front iv ih).assignInput v n = ((m.assignInput v n).1, (m.assignInput v n).2.1.front iv ih, (m.assignInput v n).2.2) := by
  simp [InputManager.assignInput, InputManager.front]

omit [DecidableEq F] in
theorem foldTail_front (e0 e1 xs0 xs1 beta : Expr) (inv : F) (m : InputManager) (n : Nat) :
    foldTail B e0 e1 xs0 xs1 beta inv (m.front iv ih) n = ((foldTail B e0 e1 xs0 xs1 beta inv m n).1,
      (foldTail B e0 e1 xs0 xs1 beta inv m n).2.1, (foldTail B e0 e1 xs0 xs1 beta inv m n).2.2.1.front iv ih,
      (foldTail B e0 e1 xs0 xs1 beta inv m n).2.2.2) := by
  simp [foldTail, InputManager.assignHintInput, InputManager.front]

theorem foldRowExpr_front {folded sibling x beta : Expr} {z : F} {i : Nat} {m : InputManager} {n : Nat} {next : Expr}
    {m' : InputManager} {n' : Nat}
    (h : foldRowExpr B folded sibling x z i beta (m.front iv ih) n = some (next, m', n')) :
    ∃ mb, m' = mb.front iv ih ∧ foldRowExpr B folded sibling x z i beta m n = some (next, mb, n') := by
  rw [foldRowExpr_eq] at h
  rw [foldRowExpr_eq]
  simp only [foldTail_front] at h
  split at h <;> split at h
  · cases h
  · rename_i h1 h2
    rw [if_pos h1, if_neg h2]
    cases h
    exact ⟨_, rfl, rfl⟩
  · cases h
  · rename_i h1 h2
    rw [if_neg h1, if_neg h2]
    cases h
    exact ⟨_, rfl, rfl⟩

/-- The rounds do not look at the inputs assigned before. -/
theorem queryLoopExpr_front {q : Nat} : ∀ {rounds : List (Nat × C × (List (List F) × Pf) × F)} {idx : Nat} {folded x : Expr}
    {ros : List (Nat × Expr)} {z : F} {m : InputManager} {n : Nat} {e : Expr} {idx' : Nat} {m' : InputManager} {n' : Nat},
    queryLoopExpr B M q rounds idx folded ros x z (m.front iv ih) n = .ok (e, idx', m', n') →
    ∃ mb, m' = mb.front iv ih ∧ queryLoopExpr B M q rounds idx folded ros x z m n = .ok (e, idx', mb, n')
  | [], idx, folded, x, ros, z, m, n, e, idx', m', n', h => by
    rw [queryLoopExpr] at h
    cases h
    exact ⟨m, rfl, by rw [queryLoopExpr]⟩
  | (lfh, c, step, β) :: rest, idx, folded, x, ros, z, m, n, e, idx', m', n', h => by
    obtain ⟨row, s, next, m3, n3, hrow, hacc, hs, hf, h⟩ := loop_cons.mp h
    simp only [assignInput_front] at hf
    obtain ⟨m4, rfl, hf'⟩ := foldRowExpr_front hf
    obtain ⟨mb, e1, e2⟩ := queryLoopExpr_front h
    exact ⟨mb, e1, loop_cons.mpr ⟨row, s, next, m4, n3, hrow, hacc, hs, hf', e2⟩⟩

/-- Reduced openings of heights that no round has are not looked at. -/
theorem queryLoopExpr_unread {q : Nat} : ∀ {rounds : List (Nat × C × (List (List F) × Pf) × F)} {idx : Nat} {folded x : Expr}
    {ros : List (Nat × Expr)} {z : F} {m : InputManager} {n : Nat}, (∀ r ∈ ros, ∀ rd ∈ rounds, r.1 ≠ rd.1 + 1) →
    queryLoopExpr B M q rounds idx folded ros x z m n = queryLoopExpr B M q rounds idx folded [] x z m n
  | [], idx, folded, x, ros, z, m, n, _ => by rw [queryLoopExpr, queryLoopExpr]
  | (lfh, c, step, β) :: rest, idx, folded, x, ros, z, m, n, h => by
    have hn : nextRoExpr (lfh + 1) folded ros n = (folded, ros, n) := by
      cases ros with
      | nil => rfl
      | cons r ros =>
        obtain ⟨lh, ro⟩ := r
        have := h (lh, ro) (List.mem_cons_self ..) _ (List.mem_cons_self ..)
        exact if_neg this
    have hn' : nextRoExpr (lfh + 1) folded [] n = (folded, [], n) := rfl
    have ih := fun idx folded x z m n => queryLoopExpr_unread (q := q) (rounds := rest) (idx := idx) (folded := folded) (x := x)
      (ros := ros) (z := z) (m := m) (n := n) fun r hr rd hrd => h r hr rd (List.mem_cons_of_mem _ hrd)
    rw [queryLoopExpr, queryLoopExpr, hn, hn']
    simp only [ih]

omit [Field F] [DecidableEq F] in
/-- The reduced openings and their values have the same heights. -/
theorem OpensTo.heights {m : InputManager} {n : Nat} {ros : List (Nat × Expr)} {vals : List (Nat × F)}
    (h : OpensTo B m n ros vals) : ros.map Prod.fst = vals.map Prod.fst := by
  obtain ⟨K, env, ha⟩ := exists_agrees h.nodup h.values
  obtain ⟨P, -, hr⟩ := h.built K env ha
  have : List.Forall₂ (· = ·) (ros.map Prod.fst) (vals.map Prod.fst) := by
    rw [List.forall₂_map_left_iff, List.forall₂_map_right_iff]
    exact hr.imp fun _ _ h => h.1
  exact List.forall₂_eq_eq_eq ▸ this

omit [Field F] [DecidableEq F] in
theorem OpensTo.height_mem {m : InputManager} {n : Nat} {ros : List (Nat × Expr)} {vals : List (Nat × F)}
    (h : OpensTo B m n ros vals) {r : Nat × Expr} (hr : r ∈ ros) : ∃ v ∈ vals, v.1 = r.1 :=
  List.mem_map.mp (h.heights ▸ List.mem_map_of_mem hr)

omit [Field F] [DecidableEq F] in
/-- The rounds of a query and their heights. -/
theorem round_heights {top : Nat} {commits : List C} {openings : List (List (List F) × Pf)} {betas : List F}
    {rd : Nat × C × (List (List F) × Pf) × F} (h : rd ∈ (List.range top).reverse.zip (commits.zip (openings.zip betas))) :
    top < rd.1 + 1 + min commits.length openings.length := by
  obtain ⟨i, hi, rfl⟩ := List.getElem_of_mem h
  simp only [List.length_zip, List.length_reverse, List.length_range] at hi
  simp only [List.getElem_zip, List.getElem_reverse, List.getElem_range, List.length_range]
  omega

/-- **C79 is violated** by queries none of whose rounds reads a reduced opening: the script of such a query fails if anything
is opened. -/
theorem C79_violated_unread {scfg : Cfg} {L : U31Lib} {T : TrackerLib} (hL : L.Ok scfg) (hT : T.Ok scfg) (hB : B.Ok)
    {proof : FriProof F C Pf W IP} {betas : List F}
    {openInput : Nat → Nat → IP → InputManager → Nat → Res (List (Nat × Expr) × InputManager × Nat)}
    {q idx n n0 n1 : Nat} {qp : QueryProof F Pf IP} {ros : List (Nat × Expr)} {vals : List (Nat × F)}
    {m0 m : InputManager} (h1 : 1 ≤ proof.commitPhaseCommits.length + cfg.logBlowup)
    (hmax : proof.commitPhaseCommits.length + cfg.logBlowup ≤ 27)
    (hidx : idx < 2 ^ (proof.commitPhaseCommits.length + cfg.logBlowup))
    (hopen : openInput q idx qp.inputProof .new n = .ok (ros, m0, n0)) (hto : OpensTo B m0 n0 ros vals)
    (hin : m0.inputs ≠ [])
    (hlow : ∀ r ∈ vals, r.1 ≤ cfg.logBlowup + (proof.commitPhaseCommits.length - qp.commitPhaseOpenings.length))
    (hq : bfQueryManager B M cfg proof betas openInput q idx qp n = .ok (m, n1)) :
    ∀ N, n1 ≤ N → ∃ m' n', m.embedHintVerify N = some (m', n') ∧ m'.run scfg L T ≠ some () := by
  intro N hN
  rw [bfQueryManager, Res.bind_eq_ok] at hq
  obtain ⟨_, ho, hq⟩ := hq
  rw [hopen] at ho
  cases ho
  rw [Res.bind_eq_ok] at hq
  obtain ⟨⟨folded, m2, n2⟩, hv, hq⟩ := hq
  simp only [Res.ok.injEq, Prod.mk.injEq] at hq
  obtain ⟨rfl, rfl⟩ := hq
  rw [bfVerifyQuery, Res.bind_eq_ok] at hv
  obtain ⟨⟨folded', idx', m2', n2'⟩, hl, hv⟩ := hv
  simp only at hv
  split at hv
  · cases hv
  simp only [Res.ok.injEq, Prod.mk.injEq] at hv
  obtain ⟨rfl, rfl, rfl⟩ := hv
  -- the inputs
  obtain ⟨le1, -, hinp, hnm⟩ := loop_le hl
  have named := (hnm ⟨hto.names, hto.nodup⟩).assignInput (B.u32 proof.finalPoly) n2'
  obtain ⟨K, env, ha⟩ := exists_agrees (m := (m2'.assignInput (B.u32 proof.finalPoly) n2').2.1) named.nodup (by
    intro p hp
    simp only [InputManager.inputs, InputManager.assignInput, List.mem_append, List.mem_singleton] at hp
    have hfield : ∀ p ∈ m2'.inputs, (constVal p.2).isSome = true := by
      intro p hp
      rcases hinp p hp with hp | ⟨x, hx⟩
      · exact hto.values p hp
      · rw [hx, hB.const]; rfl
    rcases hp with hp | hp | rfl
    · exact hfield p (List.mem_append_left _ hp)
    · exact hfield p (List.mem_append_right _ hp)
    · show (constVal (B.u32 proof.finalPoly)).isSome = true
      rw [hB.const]; rfl)
  -- the same rounds without the reduced openings
  rw [queryLoopExpr_unread fun r hr rd hrd => by
    obtain ⟨v, hv, e⟩ := hto.height_mem hr
    have h2 := hlow v hv
    have h3 := round_heights hrd
    omega] at hl
  have hm0 : m0 = InputManager.front m0.inputVar m0.inputHint { m0 with inputVar := [], inputHint := [] } := by
    simp [InputManager.front]
  rw [hm0] at hl
  obtain ⟨mb, rfl, hl'⟩ := queryLoopExpr_front hl
  have hfin : ((mb.front m0.inputVar m0.inputHint).assignInput (B.u32 proof.finalPoly) n2').2.1 =
      (mb.assignInput (B.u32 proof.finalPoly) n2').2.1.front m0.inputVar m0.inputHint := by rw [assignInput_front]
  have hfin1 : ((mb.front m0.inputVar m0.inputHint).assignInput (B.u32 proof.finalPoly) n2').1 =
      (mb.assignInput (B.u32 proof.finalPoly) n2').1 := by rw [assignInput_front]
  have hfin2 : ((mb.front m0.inputVar m0.inputHint).assignInput (B.u32 proof.finalPoly) n2').2.2 =
      (mb.assignInput (B.u32 proof.finalPoly) n2').2.2 := by rw [assignInput_front]
  rw [hfin] at named ha
  rw [hfin1, hfin2] at hN
  rw [hfin, hfin1, hfin2]
  generalize hmf : mb.assignInput (B.u32 proof.finalPoly) n2' = mf at named ha hN ⊢
  have hmem : ∀ p, p ∈ (mf.2.1.front m0.inputVar m0.inputHint).inputs ↔ p ∈ m0.inputs ∨ p ∈ mf.2.1.inputs := by
    intro p
    simp only [InputManager.inputs, InputManager.front, List.mem_append]
    tauto
  have hperm : (mf.2.1.front m0.inputVar m0.inputHint).inputs.Perm (m0.inputs ++ mf.2.1.inputs) := by
    simp only [InputManager.inputs, InputManager.front, List.append_assoc]
    refine List.Perm.append_left _ ?_
    rw [← List.append_assoc, ← List.append_assoc]
    exact List.Perm.append_right _ List.perm_append_comm
  have hnd := (hperm.map Prod.fst).nodup_iff.mp named.nodup
  rw [List.map_append, List.nodup_append] at hnd
  have hab : mf.2.1.Agrees K env := ⟨fun p hp => ha.vals p ((hmem p).mpr (.inr hp)),
    fun p hp => ha.kinds p ((hmem p).mpr (.inr hp)), hnd.2.1⟩
  have le2 : mb.Le mf.2.1 := hmf ▸ InputManager.le_assignInput (B.u32 proof.finalPoly) mb n2'
  have ha2 := hab.mono le2
  have b0 : Built K NoNodes ({ m0 with inputVar := [], inputHint := [] } : InputManager) n0 NoNodes :=
    { Built.new K n0 with
      prov := fun s v hs => (hs : False).elim
      names := fun p hp => by simp [InputManager.inputs] at hp
      nodup := by simp [InputManager.inputs] }
  obtain ⟨P1, b1, s1, d1⟩ := makes_const (env := env) hB b0 (0 : F)
  obtain ⟨P2, b2, s2, d2⟩ := makes_root (env := env) hB b1 h1 hmax hidx
  obtain ⟨P3, cs, b3, s3, d3, c1, c2, -⟩ := loop_ok (vals := []) hB hl' ha2 b2 (d1.mono s2) .nil d2
    (pow_ne_zero _ (hB.twoAdic.ne_zero hmax))
  obtain ⟨P4, b4, s4, d4⟩ := makes_input hB b3 proof.finalPoly (hmf ▸ hab)
  obtain ⟨P5, b5, s5, p5, o5, k5⟩ := makes_equal hB b4 (d3.mono s4) d4
  rw [hmf] at b5 p5 o5 k5
  simp only [hto.hint, List.nil_append] at c1
  have hall : ∀ c ∈ cs, P5 c := fun c hc => s5 _ (s4 _ (c2 c hc).1)
  have hhint : mf.2.1.hint = cs := by rw [← hmf]; exact c1
  have hcs : ∀ h ∈ ((mf.2.1.front m0.inputVar m0.inputHint).setExec (Dsl.equal folded' mf.1 mf.2.2).1).hint, h ∈ cs :=
    fun h hh => hhint ▸ hh
  have hrs : List.Forall₂ (IsCheck K env) ((mf.2.1.front m0.inputVar m0.inputHint).setExec (Dsl.equal folded' mf.1 mf.2.2).1).hint
      (cs.map fun _ => some true) := by
    show List.Forall₂ _ mf.2.1.hint _
    rw [hhint]
    exact List.forall₂_map_right_iff.mpr (List.forall₂_same.mpr fun c hc => (c2 c hc).2.2)
  obtain ⟨m', n', e1, e2⟩ := C59_exact (n := N)
    (m := (mf.2.1.front m0.inputVar m0.inputHint).setExec (Dsl.equal folded' mf.1 mf.2.2).1)
    (K := K) (env := env) (P := P5) (rs := cs.map fun _ => some true) hL hT (b5.mono hN).good p5
    (fun h hh => hall h (hcs h hh)) ⟨ha.vals, ha.kinds, ha.nodup⟩
    (fun s v hs hv => by
      obtain ⟨p, hp, e⟩ := List.mem_map.mp (b5.prov s v hs hv)
      exact List.mem_map.mpr ⟨p, (hmem p).mpr (.inr hp), e⟩) rfl k5 hrs
    (embed_multiOk (rs := cs.map fun _ => some true) (b5.mono hN).good b5.safe p5 id k5
      (fun h hh => ⟨hall h (hcs h hh), by rw [(c2 h (hcs h hh)).2.1]; exact id⟩) hrs)
  refine ⟨m', n', e1, fun hr => ?_⟩
  obtain ⟨-, hused⟩ := e2.mp hr
  obtain ⟨p, hp⟩ := List.exists_mem_of_ne_nil _ hin
  obtain ⟨s, hs, hop⟩ := hused p ((hmem p).mpr (.inl hp))
  have hclosed : ∀ {s e : Expr}, Sub s e → P5 e → P5 s := by
    intro s e h
    induction h with
    | refl => exact id
    | arg ha _ ih => exact fun he => ih (b5.good.closed _ he _ ha)
  have hPs : P5 s := by
    rcases hs with hs | ⟨h, hh, hs⟩
    · exact hclosed hs p5
    · exact hclosed hs (hall h (hcs h hh))
  have := b5.prov s p.1 hPs (by rw [Reads, hop]; exact .inl rfl)
  exact hnd.2.2 _ (List.mem_map_of_mem hp) _ this rfl

end

end Fri

namespace Pcs

open TapStark.Fri TapStark.FS TapStark.Stark

variable {SI CI DI PI S C D P W : Type} {scfg : Cfg} {L : U31Lib} {T : TrackerLib}

/-- C79, matrices of one height, each opened at a point: exactly what the scripts of the queries accept, whatever the number
of openings. -/
theorem C79_exact_even (hL : L.Ok scfg) (hT : T.Ok scfg) {MI : InMmcs BB SI CI DI PI} {M : Mmcs BB4 S C D P} {cfg : Config}
    {g : BB} {alpha : BB4} {rounds : List (VerifierRound BB BB4 CI)}
    {proof : FriProof BB4 C P W (List (List (List BB) × PI))} {betas : List BB4}
    (hblow : 1 ≤ cfg.logBlowup) (hmax : proof.commitPhaseCommits.length + cfg.logBlowup ≤ 27)
    (hbe : betas.length = proof.commitPhaseCommits.length) {k : Nat}
    (hdom : ∀ r ∈ rounds, ∀ m ∈ r.2, m.1.size = 2 ^ k ∧ m.2 ≠ [])
    {queries : List ((Nat × Nat) × QueryProof BB4 P (List (List (List BB) × PI)))} {n n' : Nat} {ms : List InputManager}
    (hq : ∀ qr ∈ queries, qr.1.2 < 2 ^ (proof.commitPhaseCommits.length + cfg.logBlowup))
    (h : bfVerifyChallenges bb4Field M cfg proof betas (openInputExpr MI bbGen g cfg alpha rounds
      (proof.commitPhaseCommits.length + cfg.logBlowup)) queries n = .ok (ms, n')) :
    n ≤ n' ∧ List.Forall₂ (fun qr m => ∀ N, n' ≤ N → ∃ m' N', m.embedHintVerify N = some (m', N') ∧
      (m'.run scfg L T = some () ↔ QueryHolds MI cfg g alpha rounds proof betas qr ∧
        ∀ vals, verifyInput MI bbGen g cfg alpha rounds (proof.commitPhaseCommits.length + cfg.logBlowup) qr.1.1 qr.1.2
            qr.2.inputProof = .ok vals → ∀ r ∈ vals,
          cfg.logBlowup + (proof.commitPhaseCommits.length - qr.2.commitPhaseOpenings.length) < r.1)) queries ms := by
  refine managers_exact (fun qr hqr n m n1 ros m0 n0 vals hv hopen hto hm N hN => ?_) h
  have hat := verifyInput_at (Q := fun h => h = k + cfg.logBlowup) (fun r hr m hm j hj => by
    rw [(hdom r hr m hm).1] at hj
    rw [Nat.pow_right_injective (Nat.le_refl 2) hj]) hv
  by_cases hall : ∀ r ∈ vals, cfg.logBlowup + (proof.commitPhaseCommits.length - qr.2.commitPhaseOpenings.length) < r.1
  · obtain ⟨m', n', e1, e2⟩ := C43_query_accepts (M := M) hL hT bb4Field_ok hblow hmax (hq qr hqr) hbe hopen hto
      (verifyInput_rosOk hv) hall hm N hN
    refine ⟨m', n', e1, e2.trans ?_⟩
    unfold QueryHolds
    simp only [hv]
    constructor
    · refine fun h => ⟨⟨vals, rfl, h⟩, fun vals' e => ?_⟩
      cases e
      exact hall
    · rintro ⟨⟨vals', e, h⟩, -⟩
      cases e
      exact h
  · have hne : ros ≠ [] := by
      rintro rfl
      have := hto.heights
      rw [List.map_nil, eq_comm, List.map_eq_nil_iff] at this
      exact hall (by simp [this])
    push Not at hall
    obtain ⟨r0, hr0, hle⟩ := hall
    obtain ⟨m', n', e1, e2⟩ := C79_violated_unread (M := M) hL hT bb4Field_ok (by omega) hmax (hq qr hqr) hopen hto
      (openInputExpr_ne (fun r hr x hx => (hdom r hr x hx).2) hopen hne)
      (fun r hr => by rw [hat r hr, ← hat r0 hr0]; exact hle) hm N hN
    refine ⟨m', n', e1, iff_of_false e2 fun h => ?_⟩
    have := h.2 vals hv r0 hr0
    omega

/-! ### Instance: the one round of the query has no opening -/

/-- A query that opens one matrix and none of the rounds: where the reduced opening is not read, the native verifier accepts
the final value zero, whatever was opened; a script is generated, and it fails. -/
theorem C79_unread_instance (hL : L.Ok scfg) (hT : T.Ok scfg) (g p : BB) (α β z v : BB4)
    (hz : -z + algebraMap BB BB4 g ≠ 0) :
    let proof : FriProof BB4 Unit Unit Unit _ := ⟨[()], [⟨[([[p]], ())], []⟩], 0, ()⟩
    let claims : List (VerifierRound BB BB4 Unit) := [((), [((⟨1, 1⟩ : Dom BB), [(z, [v])])])]
    verifyChallenges (fun b => algebraMap BB BB4 (bbGen b)) anyLayer ⟨1, 1, 0, true⟩ proof ⟨[(0, 0)], [β]⟩
      (verifyInput anyIn bbGen g ⟨1, 1, 0, true⟩ α claims 2) = .ok () ∧
    ∃ m n m' n', bfVerifyChallenges bb4Field anyLayer ⟨1, 1, 0, true⟩ proof [β]
        (openInputExpr anyIn bbGen g ⟨1, 1, 0, true⟩ α claims 2) [((0, 0), ⟨[([[p]], ())], []⟩)] 0 = .ok ([m], n) ∧
      m.embedHintVerify n = some (m', n') ∧ m'.run scfg L T ≠ some () := by
  intro proof claims
  have hv := verifyInput_one (MI := anyIn) (fun _ _ => rfl) bbGen g α z v p hz
  constructor
  · simp only [proof, claims]
    simp [verifyChallenges, hv, verifyQuery, queryLoop, Config.blowup]
  have hopen := C79_openings anyIn bbGen g ⟨1, 1, 0, true⟩ α claims 2 0 0 [([[p]], ())] 0
  rw [hv] at hopen
  obtain ⟨ros, m0, n0, hopen, -, -⟩ := hopen
  obtain ⟨m, n, hm⟩ : ∃ m n, bfVerifyChallenges bb4Field anyLayer ⟨1, 1, 0, true⟩ proof [β]
      (openInputExpr anyIn bbGen g ⟨1, 1, 0, true⟩ α claims 2) [((0, 0), ⟨[([[p]], ())], []⟩)] 0 = .ok ([m], n) := by
    rw [bfVerifyChallenges, bfQueryManager]
    simp only [hopen, Res.bind_ok, bfVerifyQuery, proof]
    simp [queryLoopExpr, Config.blowup, bfVerifyChallenges]
  obtain ⟨-, hex⟩ := C79_exact_even (scfg := scfg) (MI := anyIn) (M := anyLayer) (cfg := ⟨1, 1, 0, true⟩) (proof := proof)
    hL hT (by decide) (show 2 ≤ 27 by decide) rfl (k := 1) (by simp [claims, Dom.size]) (by simp) hm
  cases hex with
  | cons h _ =>
    obtain ⟨m', n', e1, e2⟩ := h n (Nat.le_refl _)
    refine ⟨m, n, m', n', hm, e1, fun hr => ?_⟩
    have := (e2.mp hr).2 _ hv _ (List.mem_cons_self ..)
    revert this
    simp [proof]

end Pcs

end TapStark
