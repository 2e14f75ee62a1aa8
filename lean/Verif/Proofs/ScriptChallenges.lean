import Verif.Proofs.ChallengerExpr
import Verif.Spec.ScriptChallenges

/-
The checks of the challenges compare the native transcript with the transcript of the script.
-/

namespace TapStark.Stark

open TapStark.FS TapStark.Fri

variable {K : Variable → Kind} {env : Variable → Val} {n : Nat} {P : Expr → Prop} {hash : List UInt8 → U256}

/-! ### `index_to_rou(1, degree_bits)` -/

theorem root_inv {bits : Nat} (hg : Good K n P) (hs : MultiSafe P) (hb' : bits ≤ 27) :
    ∃ P', Grow K P n (rootExpr bits n).2 P' ∧ Keeps P P' ∧ IsTyped K P' (rootExpr bits n).1 .base ∧
      eval env (rootExpr bits n).1 = if bits = 0 then none else some [.nat (bbGen bits).val] := by
  have hc : constVal [1] = some (.nat 1) := by rw [constVal, if_pos (by decide)]
  have g1 : Good K (n + 2) (ins (.node (n + 2) (.constant [1]) 1 []) P) := by
    refine Good.ins hg (fun s hs => ?_) (by omega) (Nat.le_refl _) (fun _ h => (by cases h))
      ⟨rfl, constKind [1], .nat 1, rfl, hc, constVal_has hc⟩ ?_ ?_ ?_ ?_
    · have := hg.le s hs; omega
    · intro k hk
      have : [constKind [1]] = [k] := hk
      cases this; rfl
    · rintro (h | ⟨_, _, h⟩) <;> cases h
    · rintro v h; cases h
    · rintro v h; cases h
  have s1 : MultiSafe (ins (.node (n + 2) (.constant [1]) 1 []) P) :=
    hs.ins hg (fun _ h => (by cases h)) rfl (fun _ h => (by cases h))
  have horph : Orphan (ins (.node (n + 2) (.constant [1]) 1 []) P) (.node (n + 2) (.constant [1]) 1 []) :=
    orphan_new hg (fun s hs => by have := hg.le s hs; omega) (fun _ h => (by cases h))
  have hkc : kinds K (.node (n + 2) (.constant [1]) 1 []) = [.nat 2] := by rw [kinds_node]; rfl
  have hmem : ∀ a ∈ [Expr.node (n + 2) (.constant [1]) 1 []], ins (.node (n + 2) (.constant [1]) 1 []) P a := by
    intro a ha
    rw [List.mem_singleton] at ha
    subst ha
    exact ins_self
  refine ⟨_, ⟨Good.ins g1 (id := n + 1) (opc := .indexToRou bbConsts bits) (size := 1)
      (args := [.node (n + 2) (.constant [1]) 1 []]) ?_ (Nat.le_refl _) (Nat.le_succ _) ?_ ?_ ?_ ?_ ?_ ?_,
      s1.ins g1 hmem rfl ?_, Nat.le_add_right _ _, fun s h => ins_of (ins_of h), ?_⟩, ?_, ⟨ins_self, id, rfl,
      varSize_of (.inl rfl), ?_⟩, ?_⟩
  · rintro s (rfl | hs)
    · show n + 2 ≠ n + 1
      omega
    · have := hg.le s hs; omega
  · intro a ha
    refine ⟨hmem a ha, ?_⟩
    rw [List.mem_singleton] at ha
    subst ha
    exact varSize_of (.inl rfl)
  · exact ⟨2, by rw [List.map_singleton, hkc], hb', .inl ⟨rfl, rfl⟩⟩
  · intro k hk
    have : [Kind.base] = [k] := hk
    cases this; rfl
  · rintro (h | ⟨_, _, h⟩) <;> cases h
  · rintro v h; cases h
  · rintro v h; cases h
  · intro a ha _
    rw [List.mem_singleton] at ha
    subst ha
    exact horph.free g1 rfl
  · rintro s v (rfl | rfl | hs) hv
    · rcases hv with hv | hv <;> cases hv
    · rcases hv with hv | hv <;> cases hv
    · exact hs
  · intro u v hu hb ho
    refine Orphan.ins g1 (ho.ins hg hu (fun _ h => (by cases h)) (by simp)) (ins_of hu) hmem ?_
    intro hmem
    rw [List.mem_singleton] at hmem
    have := hg.le u hu
    rw [hmem] at this
    have : n + 2 ≤ n := this
    omega
  · show kinds K (.node (n + 1) (.indexToRou bbConsts bits) 1 [.node (n + 2) (.constant [1]) 1 []]) = _
    rw [kinds_node]; rfl
  · show eval env (.node (n + 1) (.indexToRou bbConsts bits) 1 [.node (n + 2) (.constant [1]) 1 []]) = _
    have he : eval env (.node (n + 2) (.constant [1]) 1 []) = some [.nat 1] := by
      rw [eval, evalArgs, Option.bind_some]
      show (constVal [1]).map ([·]) = _
      rw [hc]; rfl
    rw [eval, evalArgs_one, he]
    show Opc.denote env (.indexToRou bbConsts bits) [[.nat 1]] = _
    by_cases hb : bits = 0
    · rw [if_pos hb, Opc.denote, if_neg (by rw [hb]; decide)]
    · have : 1 < 2 ^ bits := Nat.one_lt_two_pow hb
      rw [if_neg hb, Opc.denote, if_pos this, if_pos (show bbConsts.size = 1 from rfl), pow_one]
      rfl

/-! ### Observing commitments -/

theorem observeAll_append {perm : List U32 → List U32} (c : Chal U32) (a b : List U32) :
    c.observeAll 16 perm (a ++ b) = (c.observeAll 16 perm a).bind fun c => c.observeAll 16 perm b := by
  rw [Chal.observeAll, List.foldlM_append]; rfl

theorem observeNested_flat {perm : List U32 → List U32} (comm : Roots) (c : Chal U32) :
    c.observeNested 16 perm (comm.map Vector.toList) = c.observeAll 16 perm (comm.flatMap Vector.toList) := by
  induction comm generalizing c with
  | nil => rfl
  | cons v comm ih =>
    rw [List.flatMap_cons, observeAll_append, List.map_cons, Chal.observeNested, List.foldlM_cons]
    show (c.observeAll 16 perm v.toList).bind (fun c => c.observeNested 16 perm (comm.map Vector.toList)) = _
    simp only [ih]

theorem observeRoots_inv (hH : IsBlake3 hash) {d : Chal U32} {e : ChalExpr} (h : CInv 4 K env n P d e) (comm : Roots) :
    ∃ d' e' n' P', (scriptChall (blake3Perm hash)).observe d comm = some d' ∧ observeRoots e comm n = some (e', n') ∧
      Grow K P n n' P' ∧ CInv 4 K env n' P' d' e' := by
  obtain ⟨d', e', n', P', h1, h2, h3, h4, _⟩ := observeAll_inv hH (.inr rfl) (vs := comm.flatMap Vector.toList) h
  refine ⟨d', e', n', P', ?_, h2, h3, h4⟩
  show d.observeNested 16 _ (comm.map Vector.toList) = _
  rw [observeNested_flat, h1]

/-! ### Samples -/

theorem fromBase4_four (a b c d : BB) : fromBase4 [a, b, c, d] = mk4 a b c d := by
  rw [← asBase4_mk4, fromBase4_asBase4]

theorem wordsVal_four (f : U32 → BB) {ws : List U32} (h : ws.length = 4) :
    wordsVal f ws = .ext (fromBase4 (ws.map f)) := by
  match ws, h with
  | [a, b, c, d], _ => rw [wordsVal, List.map_cons, List.map_cons, List.map_cons, List.map_singleton, fromBase4_four]

/-- A check is a node of `P` with outcome `r`. -/
def Checked (K : Variable → Kind) (env : Variable → Val) (P : Expr → Prop) (x : Expr) (r : Option Bool) : Prop :=
  P x ∧ x.opc = .equal ∧ IsCheck K env x r

theorem Checked.mono {P' : Expr → Prop} {x : Expr} {r : Option Bool} (h : Checked K env P x r) (hP : ∀ s, P s → P' s) :
    Checked K env P' x r := ⟨hP _ h.1, h.2⟩

theorem checked_mono {P' : Expr → Prop} {xs : List Expr} {rs : List (Option Bool)} (h : List.Forall₂ (Checked K env P) xs rs)
    (hP : ∀ s, P s → P' s) : List.Forall₂ (Checked K env P') xs rs := by
  induction h with
  | nil => exact .nil
  | cons h _ ih => exact .cons (h.mono hP) ih

open Classical in
/-- The outcome of comparing extension field elements. -/
noncomputable def sameExt (x y : BB4) : Option Bool := if x = y then some true else none

theorem constKind_bb4 (x : BB4) : constKind (bb4Field.u32 x) = .ext := by
  obtain ⟨a, b, c, d, rfl⟩ := exists_mk4 x
  rw [show bb4Field.u32 (mk4 a b c d) = (asBase4 (mk4 a b c d)).map ZMod.val from rfl, asBase4_mk4]
  rfl

theorem sampleCheck_inv (hH : IsBlake3 hash) {d : Chal U32} {e : ChalExpr} (h : CInv 4 K env n P d e) (v : BB4) :
    ∃ w d' x y e' n' P', (scriptChall (blake3Perm hash)).sample d = some (w, d') ∧
      sampleCheck e v n = some (x, y, e', n') ∧ Grow K P n n' P' ∧ CInv 4 K env n' P' d' e' ∧
      IsValue K env P' x .ext (.ext w) ∧ Checked K env P' y (sameExt w v) := by
  obtain ⟨ws, d', x, e', n', P', h1, h2, h3, h4, _, h6⟩ := sample_inv hH (.inr rfl) h
  have hv := h6.value (.inr rfl)
  rw [if_neg (by decide), wordsVal_four _ h6.len] at hv
  obtain ⟨P2, g1, g2, g3, g4, g5⟩ := equalC_inv (n := n') h3.good h3.safe hv (cs := bb4Field.u32 v) (w := .ext v)
    (by rw [bb4Field_ok.const, val_bb4]) (.inl ⟨rfl, constKind_bb4 v⟩) trivial
  refine ⟨_, _, x, _, e', _, P2, ?_, ?_, h3.trans g1, h4.keep g1 g2, hv.mono g1.sub, g3, g4, g5⟩
  · show (do let (vs, ch) ← d.sample 16 (blake3Perm hash) 4; _) = _
    rw [h1]; rfl
  · rw [sampleCheck, h2]; rfl

/-! ### The loops -/

theorem betas_inv (hH : IsBlake3 hash) : ∀ {comms : List Roots} {c c' : Chal U32} {betas : List BB4} {n : Nat}
    {P : Expr → Prop} {d : Chal U32} {e : ChalExpr}, CInv 4 K env n P d e →
    sampleBetas (bb4Chall (blake3Perm hash)) comms c = some (betas, c') →
    ∃ betas' d' checks e' n' P', sampleBetas (scriptChall (blake3Perm hash)) comms d = some (betas', d') ∧
      betasExpr (blake3Perm hash) comms c e n = some (betas, checks, c', e', n') ∧ Grow K P n n' P' ∧
      CInv 4 K env n' P' d' e' ∧ betas'.length = betas.length ∧
      List.Forall₂ (Checked K env P') checks (List.zipWith sameExt betas' betas) := by
  intro comms
  induction comms with
  | nil =>
    intro c c' betas n P d e h hb
    cases hb
    exact ⟨[], d, [], e, n, P, rfl, rfl, .refl h.good h.safe, h, rfl, .nil⟩
  | cons comm comms ih =>
    intro c c' betas n P d e h hb
    rw [sampleBetas] at hb
    simp only [Option.bind_eq_bind, Option.bind_eq_some_iff, Prod.exists, Option.some.injEq, Prod.mk.injEq] at hb
    obtain ⟨c1, b1, beta, c2, b2, bs, c3, b3, rfl, rfl⟩ := hb
    obtain ⟨d1, e1, n1, P1, o1, o2, o3, o4⟩ := observeRoots_inv hH h comm
    obtain ⟨w, d2, x, y, e2, n2, P2, s1, s2, s3, s4, _, s6⟩ := sampleCheck_inv hH o4 beta
    obtain ⟨bs', d3, checks, e3, n3, P3, i1, i2, i3, i4, i5, i6⟩ := ih s4 b3
    refine ⟨w :: bs', d3, y :: checks, e3, n3, P3, ?_, ?_, (o3.trans s3).trans i3, i4, by simp [i5],
      .cons (s6.mono i3.sub) i6⟩
    · rw [sampleBetas, o1]
      simp only [Option.bind_eq_bind, Option.bind_some, s1, i1]
    · rw [betasExpr, b1]
      simp only [Option.bind_eq_bind, Option.bind_some, b2, o2, s2, i2]

theorem index_inv (hH : IsBlake3 hash) {d : Chal U32} {e : ChalExpr} (h : CInv 4 K env n P d e) {bits : Nat}
    (hb : 1 ≤ bits) (hb' : bits ≤ 31) (i : Nat) (hi : i < 2 ^ 31) :
    ∃ j d' x e' n' P', (scriptChall (blake3Perm hash)).sampleBits d bits = some (j, d') ∧
      e.sampleBits 4 bits n = some (x, e', n') ∧ Grow K P n (Dsl.equalC x [i] n').2 P' ∧
      CInv 4 K env (Dsl.equalC x [i] n').2 P' d' e' ∧
      Checked K env P' (Dsl.equalC x [i] n').1 (some (decide (j = i))) := by
  obtain ⟨ws, d', x, e', n', P', h1, h2, h3, h4, _, _, h7⟩ := sampleBits_inv hH (.inr rfl) h hb hb'
  have hlt := bitsOf_lt scriptWord hb' ws
  have h31 : 2 ^ bits ≤ 2 ^ 31 := Nat.pow_le_pow_right (by decide) hb'
  obtain ⟨P2, g1, g2, g3, g4, g5⟩ := equalC_inv (n := n') h3.good h3.safe h7 (cs := [i]) (w := .nat i)
    (by rw [constVal, if_pos hi]) (.inr ⟨⟨_, rfl⟩, ⟨_, rfl⟩⟩) ⟨hlt, by omega⟩
  refine ⟨bitsOf scriptWord bits ws, { d' with output := [] }, x, e', n', P2, ?_, h2, h3.trans g1, h4.keep g1 g2,
    g3, g4, g5⟩
  show (do let (vs, ch) ← d.sample 16 (blake3Perm hash) 4; _) = _
  rw [h1]; rfl

theorem native_bits_lt {perm : List U32 → List U32} {c c' : Chal U32} {bits i : Nat} (hb : bits ≤ 31)
    (h : (bb4Chall perm).sampleBits c bits = some (i, c')) : i < 2 ^ 31 := by
  have h : FS.sampleBits perm 4 bits c = some (i, c') := h
  rw [FS.sampleBits] at h
  simp only [Option.bind_eq_bind, Option.bind_eq_some_iff, Prod.exists] at h
  obtain ⟨vs, c1, _, r, hr, h⟩ := h
  rw [if_pos (by omega)] at h
  cases h
  obtain ⟨w, _, rfl⟩ := Option.map_eq_some_iff.mp hr
  rw [Nat.shiftRight_eq_div_pow]
  have : fromPf w < babyBearP := Nat.mod_lt _ (by decide)
  have : babyBearP < 2 ^ 31 := by decide
  exact Nat.lt_of_le_of_lt (Nat.div_le_self _ _) (by omega)

theorem indices_inv (hH : IsBlake3 hash) {bits : Nat} (hb : 1 ≤ bits) (hb' : bits ≤ 31) : ∀ {k q : Nat}
    {c c' : Chal U32} {is : List (Nat × Nat)} {n : Nat} {P : Expr → Prop} {d : Chal U32} {e : ChalExpr},
    CInv 4 K env n P d e → sampleIndices (bb4Chall (blake3Perm hash)) bits k q c = some (is, c') →
    ∃ js d' checks e' n' P', sampleIndices (scriptChall (blake3Perm hash)) bits k q d = some (js, d') ∧
      indicesExpr (blake3Perm hash) bits k q c e n = some (is, checks, c', e', n') ∧ Grow K P n n' P' ∧
      CInv 4 K env n' P' d' e' ∧ is.length = k ∧ js.length = k ∧
      List.Forall₂ (Checked K env P') checks (List.zipWith (fun i j => some (decide (i = j))) js is) := by
  intro k
  induction k with
  | zero =>
    intro q c c' is n P d e h hs
    cases hs
    exact ⟨[], d, [], e, n, P, rfl, rfl, .refl h.good h.safe, h, rfl, rfl, .nil⟩
  | succ k ih =>
    intro q c c' is n P d e h hs
    rw [sampleIndices] at hs
    simp only [Option.bind_eq_bind, Option.bind_eq_some_iff, Prod.exists, Option.some.injEq, Prod.mk.injEq] at hs
    obtain ⟨i, c1, b1, rest, c2, b2, rfl, rfl⟩ := hs
    obtain ⟨j, d1, x, e1, n1, P1, o1, o2, o3, o4, o5⟩ := index_inv hH h hb hb' i (native_bits_lt hb' b1)
    obtain ⟨js, d2, checks, e2, n2, P2, i1, i2, i3, i4, i5, i6, i7⟩ := ih (q := q + 1) o4 b2
    refine ⟨(q, j) :: js, d2, (Dsl.equalC x [i] n1).1 :: checks, e2, n2, P2, ?_, ?_, o3.trans i3, i4, by simp [i5], by simp [i6],
      .cons ?_ i7⟩
    · rw [sampleIndices, o1]
      simp only [Option.bind_eq_bind, Option.bind_some, i1]
    · rw [indicesExpr, b1]
      simp only [Option.bind_eq_bind, Option.bind_some, o2, i2]
    · have := o5.mono i3.sub
      simpa using this

theorem pow_inv (hH : IsBlake3 hash) {d : Chal U32} {e : ChalExpr} (h : CInv 4 K env n P d e) {bits : Nat}
    (hb : 1 ≤ bits) (hb' : bits ≤ 31) (w : U32) :
    ∃ b d' x e' n' P', (scriptChall (blake3Perm hash)).checkWitness d bits w = some (b, d') ∧
      e.checkWitness 4 bits w n = some (x, e', n') ∧ Grow K P n n' P' ∧ CInv 4 K env n' P' d' e' ∧
      Checked K env P' x (some b) := by
  obtain ⟨d1, d2, ws, d3, x, e', n', P', h1, h2, h3, h4, h5, h6, _, _, h9, h10, h11⟩ := checkWitness_inv hH (.inr rfl) h hb hb' w
  refine ⟨decide (bitsOf scriptWord bits ws = 0), { d3 with output := [] }, x, e', n', P', ?_, h4, h5, h6, h9, h10, h11⟩
  unfold scriptChall
  simp only [Option.bind_eq_bind, h1, Option.bind_some, h2, h3]
  rfl

/-! ### All challenges -/

/-- The outcome of the check of the next point: without degree bits `index_to_rou(1, 0)` fails the script. -/
noncomputable def sameNext (bits : Nat) (x y : BB4) : Option Bool := if bits = 0 then none else sameExt x y

/-- The next point is checked as well. -/
theorem next_inv {zetaE : Expr} {w : BB4} {bits : Nat} (hg : Good K n P) (hs : MultiSafe P) (hb' : bits ≤ 27)
    (hz : IsValue K env P zetaE .ext (.ext w)) (v : BB4) :
    let r := rootExpr bits n
    let y := Dsl.mul zetaE r.1 r.2
    ∃ P', Grow K P n (Dsl.equalC y.1 (bb4Field.u32 v) y.2).2 P' ∧ Keeps P P' ∧
      Checked K env P' (Dsl.equalC y.1 (bb4Field.u32 v) y.2).1
        (sameNext bits (w * algebraMap BB BB4 (bbGen bits)) v) := by
  intro r y
  obtain ⟨P1, g1, k1, h1, h1'⟩ := root_inv (env := env) hg hs hb'
  have hz1 := hz.mono g1.sub
  have hv : Val.ofF ((Val.ext w).toF.mul (Val.nat (bbGen bits).val).toF) = .ext (w * algebraMap BB BB4 (bbGen bits)) := by
    simp [Val.toF, FVal.mul, FVal.lift2, Val.ofF, FVal.val]
  obtain ⟨g2, k2, h2⟩ := typed_node (n := r.2) (opc := .mul) (size := 4) (args := [zetaE, r.1]) (k := .ext)
    g1.good g1.safe
    (by
      intro a ha
      rcases List.mem_cons.mp ha with rfl | ha
      · exact ⟨_, hz1.toIsTyped⟩
      · rw [List.mem_singleton] at ha
        subst ha
        exact ⟨_, h1⟩)
    ⟨.ext, .base, by rw [List.map_cons, List.map_singleton, hz1.kind, h1.kind], .inl rfl, .inr ⟨_, Nat.le_refl _, rfl⟩,
      by rw [List.map_cons, List.map_singleton, hz1.kind, h1.kind]; rfl⟩
    (by rw [List.map_cons, List.map_singleton, hz1.kind, h1.kind]; rfl) rfl
    (fun v => ⟨fun h => (by cases h), fun h => (by cases h)⟩)
    (by rintro (h | ⟨_, _, h⟩) <;> cases h) rfl id
  have he : eval env (.node (r.2 + 1) .mul 4 [zetaE, r.1]) =
      if bits = 0 then none else some [.ext (w * algebraMap BB BB4 (bbGen bits))] := by
    rw [eval, evalArgs_two, hz1.eval, h1']
    split
    · rfl
    · show some [_] = _
      rw [hv]
  have hy : y = (.node (r.2 + 1) .mul 4 [zetaE, r.1], r.2 + 1) := by
    show Dsl.mul zetaE r.1 r.2 = _
    rw [Dsl.mul, hg.size _ _ hz.mem hz.kind]
    rfl
  rw [hy]
  obtain ⟨P3, g3, k3, m3, o3, c3, e3⟩ := equalC_typed (env := env) (n := r.2 + 1) g2.good g2.safe h2
    (cs := bb4Field.u32 v) (w := .ext v) (by rw [bb4Field_ok.const, val_bb4]) (.inl ⟨rfl, constKind_bb4 v⟩)
  refine ⟨P3, (g1.trans g2).trans g3, (k1.trans g1.sub k2).trans (g1.trans g2).sub k3, m3, o3, c3, ?_⟩
  rw [e3, he, sameNext, sameExt]
  split
  · rfl
  · show Opc.denote env .equal [[.ext _], [.ext _]] = _
    simp only [Opc.denote]
    split <;> rfl

/-- The outcomes of all checks. -/
noncomputable def outcomes (bits : Nat) (s : ScriptChallenges) (alpha zeta : BB4) (fc : FriChallenges BB4) :
    List (Option Bool) :=
  [sameExt s.alpha alpha, sameExt s.zeta zeta,
    sameNext bits (s.zeta * algebraMap BB BB4 (bbGen bits)) (zeta * algebraMap BB BB4 (bbGen bits))] ++
  (List.zipWith sameExt s.betas fc.betas ++
    some s.pow :: List.zipWith (fun i j => some (decide (i = j))) s.indices fc.queryIndices)

theorem ofOption_bind {α β : Type} {o : Option α} {f : α → Res β} {r : β} :
    (Res.ofOption o >>= f) = .ok r ↔ ∃ a, o = some a ∧ f a = .ok r := by
  cases o with
  | none => simp
  | some a => simp

theorem all_inv (hH : IsBlake3 hash) {cfg : Config} {P' IP : Type} {bits : Nat} {trace quotient : Roots}
    {proof : FriProof BB4 Roots P' U32 IP} {c c' : Chal U32} {alpha zeta batch : BB4} {fc : FriChallenges BB4}
    (hp : 1 ≤ cfg.powBits) (hp' : cfg.powBits ≤ 31) (hb' : bits ≤ 27)
    (hm : 1 ≤ proof.commitPhaseCommits.length + cfg.logBlowup)
    (hm' : proof.commitPhaseCommits.length + cfg.logBlowup ≤ 31)
    (hn : nativeTranscript (blake3Perm hash) cfg trace quotient proof c = .ok ((alpha, zeta, batch, fc), c'))
    {d : Chal U32} {e : ChalExpr} (h : CInv 4 K env n P d e) :
    ∃ s zetaE checks e' n' P', scriptTranscript (blake3Perm hash) cfg trace quotient proof d = some s ∧
      allChallenges (blake3Perm hash) cfg bits trace quotient proof c e n =
        .ok ((alpha, zeta, batch, fc), zetaE, checks, c', e', n') ∧
      Grow K P n n' P' ∧ IsValue K env P' zetaE .ext (.ext s.zeta) ∧
      List.Forall₂ (Checked K env P') checks (outcomes bits s alpha zeta fc) ∧
      s.betas.length = fc.betas.length ∧ s.indices.length = fc.queryIndices.length := by
  rw [nativeTranscript] at hn
  simp only [ofOption_bind, Prod.exists] at hn
  obtain ⟨c1, a1, alpha', c2, a2, c3, a3, zeta', c4, a4, batch', c5, a5, hn⟩ := hn
  cases hv : verifyShapeAndSampleChallenges (bb4Chall (blake3Perm hash)) cfg proof c5 with
  | err _ => rw [hv] at hn; cases hn
  | panic => rw [hv] at hn; cases hn
  | ok r =>
    obtain ⟨fc', c6⟩ := r
    rw [hv] at hn
    cases hn
    rw [verifyShapeAndSampleChallenges, ofOption_bind] at hv
    obtain ⟨⟨betas, c7⟩, b1, hv⟩ := hv
    by_cases hq : proof.queryProofs.length ≠ cfg.numQueries
    · simp only [if_pos hq] at hv; cases hv
    · simp only [if_neg hq, ofOption_bind, Prod.exists] at hv
      obtain ⟨acc, c8, b2, hv⟩ := hv
      cases acc with
      | false => cases hv
      | true =>
        simp only [Bool.not_true, if_neg Bool.false_ne_true, ofOption_bind, Prod.exists] at hv
        obtain ⟨idx, c9, b3, hv⟩ := hv
        cases hv
        obtain ⟨d1, e1, n1, P1, o1, o2, o3, o4⟩ := observeRoots_inv hH h trace
        obtain ⟨w1, d2, x1, y1, e2, n2, P2, s1, s2, s3, s4, s5, s6⟩ := sampleCheck_inv hH o4 alpha
        obtain ⟨d3, e3, n3, P3, p1, p2, p3, p4⟩ := observeRoots_inv hH s4 quotient
        obtain ⟨w2, d4, x2, y2, e4, n4, P4, q1, q2, q3, q4, q5, q6⟩ := sampleCheck_inv hH p4 zeta
        obtain ⟨P5, r1, r2, r3⟩ := next_inv q3.good q3.safe hb' q5 (zeta * algebraMap BB BB4 (bbGen bits))
        obtain ⟨betas', d5, checks, e5, n5, P6, t1, t2, t3, t4, t5, t6⟩ := betas_inv hH (q4.keep r1 r2) b1
        obtain ⟨b, d6, x3, e6, n6, P7, u1, u2, u3, u4, u5⟩ := pow_inv hH t4 hp hp' proof.powWitness
        obtain ⟨js, d7, more, e7, n7, P8, v1, v2, v3, v4, v5, v6, v7⟩ := indices_inv hH hm hm' u4 b3
        have k3 : ∀ s, P2 s → P8 s := fun s hs => v3.sub s (u3.sub s (t3.sub s (r1.sub s (q3.sub s (p3.sub s hs)))))
        refine ⟨⟨w1, w2, betas', b, js⟩, x2, [y1, y2, (Dsl.equalC (Dsl.mul x2 (rootExpr bits n4).1 (rootExpr bits n4).2).1
          (bb4Field.u32 (zeta * algebraMap BB BB4 (bbGen bits)))
          (Dsl.mul x2 (rootExpr bits n4).1 (rootExpr bits n4).2).2).1] ++ (checks ++ x3 :: more), e7, n7, P8, ?_, ?_,
          (((((((o3.trans s3).trans p3).trans q3).trans r1).trans t3).trans u3).trans v3),
          q5.mono fun s hs => v3.sub s (u3.sub s (t3.sub s (r1.sub s hs))), ?_, t5, by rw [v6, v5]⟩
        · rw [scriptTranscript]
          simp only [Option.bind_eq_bind, o1, s1, p1, q1, t1, u1, v1, Option.bind_some]
        · rw [allChallenges, starkChallenges]
          simp only [Option.bind_eq_bind, a1, o2, a2, s2, a3, p2, a4, q2, Option.bind_some, Res.ofOption_some, Res.bind_ok,
            a5, bfSampleChallenges, t2, if_neg hq, b2, Bool.not_true, if_neg Bool.false_ne_true, u2, v2]
        · refine List.rel_append (.cons (s6.mono k3) (.cons ?_ (.cons ?_ .nil))) (List.rel_append ?_ (.cons ?_ v7))
          · exact q6.mono fun s hs => v3.sub s (u3.sub s (t3.sub s (r1.sub s hs)))
          · exact r3.mono fun s hs => v3.sub s (u3.sub s (t3.sub s hs))
          · exact checked_mono t6 fun s hs => v3.sub s (u3.sub s hs)
          · exact u5.mono v3.sub

end TapStark.Stark
