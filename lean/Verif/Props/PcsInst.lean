import Verif.Model.PcsInst
import Verif.Props.Pcs
import Verif.Props.FriInst
import Mathlib.LinearAlgebra.Lagrange

/-!
The theorems on the polynomial commitment scheme at the parameters of the code base.
-/

set_option linter.unusedSectionVars false

namespace TapStark.Pcs

open TapStark.Tap TapStark.Tcs TapStark.FS TapStark.Fri Polynomial

/-! ### The external functions exist -/

section
variable {K F : Type} [Field K] [Field F] [DecidableEq K] [DecidableEq F] [Algebra K F]

/-- The polynomial of degree below `2^k` through column `c` on `shift · H`. -/
noncomputable def columnPoly (genV : Nat → K) (rows : Mat K) (shift : K) (k c : Nat) : K[X] :=
  Lagrange.interpolate (Finset.range (2 ^ k)) (fun i => shift * genV k ^ i)
    fun i => (rows.getD i []).getD c 0

/-- Interpolation by Lagrange's formula. -/
noncomputable def lagrangeExt (genV : Nat → K) : Ext K F where
  cosetLde rows added shift :=
    evalRows genV ((List.range (Mat.width rows)).map fun c =>
      columnPoly genV rows 1 (Nat.log2 rows.length) c) shift (Nat.log2 rows.length + added)
  interpolate rows shift z :=
    some ((List.range (Mat.width rows)).map fun c =>
      aeval z (columnPoly genV rows shift (Nat.log2 rows.length) c))

theorem twoAdic_ne_one {genV : Nat → K} {N : Nat} (hg : TwoAdic genV N) : ∀ {k : Nat}, k ≤ N →
    ∀ n, 0 < n → n < 2 ^ k → genV k ^ n ≠ 1
  | 0, _, n, h0, h1 => by simp at h1; omega
  | k + 1, hk, n, h0, h1 => by
    rcases Nat.even_or_odd' n with ⟨m, rfl | rfl⟩
    · rw [pow_mul, hg.sq k (by omega)]
      exact twoAdic_ne_one hg (by omega) m (by omega) (by rw [pow_succ] at h1; omega)
    · intro h
      have h2 : genV (k + 1) ^ ((2 * m + 1) * 2 ^ k) = 1 := by rw [pow_mul, h, one_pow]
      rw [mul_comm, pow_mul, hg.half (by omega), Odd.neg_one_pow ⟨m, rfl⟩] at h2
      exact hg.two_ne (by linear_combination -h2)

theorem twoAdic_injOn {genV : Nat → K} {N : Nat} (hg : TwoAdic genV N) {k : Nat} (hk : k ≤ N) {g : K}
    (hg0 : g ≠ 0) : Set.InjOn (fun i => g * genV k ^ i) (Finset.range (2 ^ k) : Set Nat) := by
  have key : ∀ i j, i < j → j < 2 ^ k → g * genV k ^ i ≠ g * genV k ^ j := by
    intro i j hij hj h
    have h' := mul_left_cancel₀ hg0 h
    obtain ⟨d, rfl⟩ : ∃ d, j = i + d := ⟨j - i, by omega⟩
    rw [pow_add] at h'
    exact twoAdic_ne_one hg hk d (by omega) (by omega)
      (mul_left_cancel₀ (pow_ne_zero i (hg.ne_zero hk)) (by rw [← h', mul_one]))
  intro i hi j hj h
  simp only [Finset.coe_range, Set.mem_Iio] at hi hj
  rcases Nat.lt_trichotomy i j with hlt | rfl | hgt
  · exact absurd h (key i j hlt hj)
  · rfl
  · exact absurd h.symm (key j i hgt hi)

theorem columns_evalRows {genV : Nat → K} {N : Nat} (hg : TwoAdic genV N) {k : Nat} (hk : k ≤ N) {g : K}
    (hg0 : g ≠ 0) (ps : List K[X]) (hps : ∀ p ∈ ps, p.natDegree < 2 ^ k) :
    ((List.range (Mat.width (evalRows genV ps g k))).map fun c =>
      columnPoly genV (evalRows genV ps g k) g (Nat.log2 (evalRows genV ps g k).length) c) = ps := by
  have hlen : (evalRows genV ps g k).length = 2 ^ k := by simp [evalRows]
  have hw : Mat.width (evalRows genV ps g k) = ps.length := by
    obtain ⟨m, hm⟩ : ∃ m, 2 ^ k = m + 1 := ⟨2 ^ k - 1, by have := Nat.two_pow_pos k; omega⟩
    simp [Mat.width, evalRows, hm, List.range_succ_eq_map]
  rw [hlen, Nat.log2_two_pow, hw]
  apply List.ext_getElem (by simp)
  intro c hc1 hc2
  simp only [List.getElem_map, List.getElem_range]
  have hd : ps[c].degree < ((Finset.range (2 ^ k)).card : WithBot ℕ) := by
    rw [Finset.card_range]
    exact lt_of_le_of_lt degree_le_natDegree (by exact_mod_cast hps _ (List.getElem_mem hc2))
  conv_rhs => rw [Lagrange.eq_interpolate (twoAdic_injOn hg hk hg0) hd]
  unfold columnPoly
  apply Lagrange.interpolate_eq_of_values_eq_on
  intro i hi
  have hi' := Finset.mem_range.1 hi
  simp [evalRows, hi', List.getElem?_eq_getElem hc2]

/-- There are functions as assumed of p3-dft and p3-interpolation. -/
theorem lagrangeExt_correct {genV : Nat → K} {N : Nat} (hg : TwoAdic genV N) :
    (lagrangeExt genV : Ext K F).Correct genV N where
  lde := by
    intro ps k added shift hk hps
    simp only [lagrangeExt]
    rw [columns_evalRows hg hk one_ne_zero ps hps]
    simp [evalRows]
  interp := by
    intro ps k shift z hk h0 hps _
    simp only [lagrangeExt]
    have := congrArg (List.map fun p => aeval z p) (columns_evalRows hg hk h0 ps hps)
    rw [List.map_map] at this
    exact congrArg some this

theorem lagrangeExt_width (genV : Nat → K) : (lagrangeExt genV : Ext K F).Width := by
  intro rows shift z ys h
  obtain rfl := Option.some.inj h
  simp

end

/-! ### The taptree commitment scheme -/

section
variable {F : Type} [LinearOrder U256]

theorem flatten_rows {w : Nat} : ∀ (rows : List (List F)), (∀ r ∈ rows, r.length = w) →
    rows.flatten.length = rows.length * w ∧
      ∀ i (hi : i < rows.length), (rows.flatten.drop (i * w)).take w = rows[i] := by
  intro rows
  induction rows with
  | nil => simp
  | cons r rows ih =>
    intro h
    obtain ⟨h1, h2⟩ := ih (fun x hx => h x (List.mem_cons_of_mem _ hx))
    have hr := h r List.mem_cons_self
    refine ⟨by simp [h1, hr, Nat.add_mul, Nat.add_comm], ?_⟩
    intro i hi
    cases i with
    | zero =>
      simp only [Nat.zero_mul, List.drop_zero, List.flatten_cons, List.getElem_cons_zero]
      rw [← hr, List.take_left]
    | succ i =>
      simp only [List.length_cons, Nat.add_lt_add_iff_right] at hi
      rw [List.flatten_cons, show (i + 1) * w = r.length + i * w by rw [hr, Nat.add_mul]; omega,
        List.drop_append, List.getElem_cons_succ, ← h2 i hi]
      have : r.drop (r.length + i * w) = [] := List.drop_eq_nil_of_le (by omega)
      rw [this, List.nil_append, Nat.add_sub_cancel_left]

/-- A matrix the scheme can commit to: rectangular, at least one column, height a power of two below
`2^32`. -/
structure MatOk (m : Mat F) (h : Nat) : Prop where
  height : m.length = 2 ^ h
  rect : ∀ row ∈ m, row.length = (m.headD []).length
  width : 0 < (m.headD []).length

theorem toTcsMat_height {m : Mat F} {h : Nat} (hm : MatOk m h) : (toTcsMat m).height = 2 ^ h := by
  simp only [Tcs.Mat.height, toTcsMat, (flatten_rows m hm.rect).1]
  rw [Nat.mul_div_cancel _ hm.width, hm.height]

theorem toTcsMat_rows {m : Mat F} {h : Nat} (hm : MatOk m h) : Fri.Mat.rows (toTcsMat m) = m := by
  unfold Fri.Mat.rows
  rw [toTcsMat_height hm]
  apply List.ext_getElem (by simp [hm.height])
  intro i hi1 hi2
  simp only [List.getElem_map, List.getElem_range]
  exact (flatten_rows m hm.rect).2 i hi2

theorem rowOf_toTcsMat {m : Mat F} {h : Nat} (hm : MatOk m h) {i : Nat} (hi : i < 2 ^ h) :
    rowOf (toTcsMat m) i = m.getD i [] := by
  have hi' : i < m.length := by rw [hm.height]; exact hi
  rw [List.getD_eq_getElem?_getD, List.getElem?_eq_getElem hi', Option.getD_some]
  exact (flatten_rows m hm.rect).2 i hi'

/-- The taptree commitment scheme, committing to matrices of power-of-two heights given tallest first,
opens them (from C24 and C33). -/
theorem tcsInMmcs_opens [DecidableEq F] {scfg : Cfg} (th : TapHash (List Op) U256) {fr : FieldRep F}
    (fok : FieldOk fr) (mgr : Manager) (isize esize : Nat)
    (ok : ∀ n w, BcsOk scfg fr.u32Size isize esize (assigned fr mgr n w)) (Q : Nat) (hQ : 0 < Q)
    (mats : List (Mat F)) (hne : mats ≠ []) (hm : ∀ m ∈ mats, ∃ h, 1 ≤ h ∧ h < 32 ∧ MatOk m h)
    (hs : mats.Pairwise fun a b => b.length ≤ a.length) (n : Nat) :
    ∃ c ds n', (tcsInMmcs scfg th fr mgr Q).commit n mats = some (c, ds, n') ∧
      (tcsInMmcs scfg th fr mgr Q).Opens Q ds c mats := by
  obtain ⟨m0, rest, rfl⟩ := List.exists_cons_of_ne_nil hne
  obtain ⟨L, hL1, hL2, hm0⟩ := hm m0 List.mem_cons_self
  have hle : ∀ m ∈ m0 :: rest, m.length ≤ 2 ^ L := by
    intro m hmm
    rcases List.mem_cons.1 hmm with rfl | hmm
    · rw [hm0.height]
    · rw [← hm0.height]; exact (List.pairwise_cons.1 hs).1 m hmm
  have hht : ∀ m ∈ m0 :: rest, ∃ h, h ≤ L ∧ MatOk m h := by
    intro m hmm
    obtain ⟨h, -, -, h3⟩ := hm m hmm
    refine ⟨h, ?_, h3⟩
    have := hle m hmm
    rw [h3.height] at this
    exact (Nat.pow_le_pow_iff_right (by omega)).1 this
  have hH : Heights ((m0 :: rest).map toTcsMat) L := by
    constructor
    · intro x hx
      obtain ⟨m, hmm, rfl⟩ := List.mem_map.1 hx
      obtain ⟨h, h1, h2⟩ := hht m hmm
      exact ⟨h, h1, toTcsMat_height h2⟩
    · exact ⟨_, List.mem_map.2 ⟨m0, List.mem_cons_self, rfl⟩, toTcsMat_height hm0⟩
  have hsort : ((m0 :: rest).map toTcsMat).Pairwise fun a b => b.height ≤ a.height := by
    rw [List.pairwise_map]
    refine hs.imp_of_mem ?_
    intro a b ha hb hab
    obtain ⟨x, -, hx⟩ := hht a ha
    obtain ⟨y, -, hy⟩ := hht b hb
    rw [toTcsMat_height hx, toTcsMat_height hy, ← hx.height, ← hy.height]
    exact hab
  obtain ⟨roots, ds, n', c1, c2⟩ := C24_batch (cfg := scfg) th fok mgr _ L hH hL1 (by omega)
    hsort isize esize ok n Q
  obtain ⟨l1, l2⟩ := mmcsCommit_leaves th fok mgr _ L hH (by omega) Q n n' roots ds c1
  have hd : ds[0]? = some ds[0] := List.getElem?_eq_getElem (by omega)
  have hlv := l2 ds[0] (List.getElem_mem (by omega))
  refine ⟨roots.map u256ToU32, ds, n', ?_, ?_, ?_⟩
  · show (mmcsCommit th fr mgr n Q _).bind _ = _
    rw [c1]; rfl
  · show (ds[0]?).bind _ = _
    rw [hd, Option.bind_some, hlv, List.map_map]
    congr 1
    conv_rhs => rw [← List.map_id (m0 :: rest)]
    apply List.map_congr_left
    intro m hmm
    obtain ⟨h, -, h2⟩ := hht m hmm
    exact toTcsMat_rows h2
  · intro top htop q i hq hi
    obtain rfl : top = L := by
      obtain ⟨t1, t2⟩ := List.max?_eq_some_iff.1 htop
      obtain ⟨m, hmm, hml⟩ := List.mem_map.1 t1
      have h1 := hle m hmm
      have h2 := t2 m0.length (List.mem_map.2 ⟨m0, List.mem_cons_self, rfl⟩)
      rw [hm0.height] at h2
      have h3 : 2 ^ top = 2 ^ L := le_antisymm (by rw [← hml]; exact h1) h2
      exact Nat.pow_right_injective (le_refl 2) h3
    obtain ⟨π, o1, o2⟩ := c2 q i hq hi
    have hrow : ((m0 :: rest).map toTcsMat).map (fun m => rowOf m (i / 2 ^ (top - log2Ceil m.height))) =
        (m0 :: rest).map fun m => m.getD (i / (2 ^ top / m.length)) [] := by
      rw [List.map_map]
      apply List.map_congr_left
      intro m hmm
      obtain ⟨h, h1, h2⟩ := hht m hmm
      simp only [Function.comp, toTcsMat_height h2, Tcs.log2Ceil_pow, h2.height]
      rw [Nat.pow_div h1 (by omega), rowOf_toTcsMat h2]
      rw [Nat.div_lt_iff_lt_mul (Nat.two_pow_pos _), ← pow_add, Nat.add_sub_cancel' h1]
      exact hi
    rw [hrow] at o1 o2
    refine ⟨π, o1, ?_⟩
    show verifyBatch scfg th fr q _ π ((roots.map u256ToU32).map u32ToU256) = some true
    rw [roots_roundtrip, o2]

/-! ### Commit, open and verify together -/

variable [Field F] [DecidableEq F] [Algebra BB F]

/-- Polynomials with their domain and the points to open them at. -/
abbrev Batch (F : Type) := List (Dom BB × List BB[X] × List F)

/-- What is given to `commit`: the evaluations on the domain. -/
noncomputable def Batch.evals (b : Batch F) : List (Dom BB × Mat BB) :=
  b.map fun x => (x.1, evalRows bbGen x.2.1 x.1.shift x.1.logN)

/-- What is given to `open`: the prover data and the points. -/
def Batch.openArg {DI : Type} (b : Batch F) (data : DI) : DI × List (List F) := (data, b.map fun x => x.2.2)

/-- What is given to `verify`: the commitment, the domains, and the points with the values of the
polynomials there. -/
noncomputable def Batch.verifyArg {CI : Type} (b : Batch F) (c : CI) : VerifierRound BB F CI :=
  (c, b.map fun x => (x.1, x.2.2.map fun z => (z, x.2.1.map fun p => aeval z p)))

/-- A batch the deployed parameters can handle: at least one polynomial per matrix, domains of
nonzero shift, largest first, degrees below the domain size, points outside the extended
domain. -/
structure Batch.Ok (b : Batch F) (g : BB) (logBlowup : Nat) : Prop where
  nonempty : b ≠ []
  columns : ∀ x ∈ b, x.2.1 ≠ []
  shift : ∀ x ∈ b, x.1.shift ≠ 0
  size : ∀ x ∈ b, x.1.logN + logBlowup ≤ 27
  sorted : b.Pairwise fun x y => y.1.logN ≤ x.1.logN
  degree : ∀ x ∈ b, ∀ p ∈ x.2.1, p.natDegree < 2 ^ x.1.logN
  points : ∀ x ∈ b, ∀ z ∈ x.2.2, ∀ i, algebraMap BB F (g * bbGen (x.1.logN + logBlowup) ^ i) ≠ z

/-- The batch as the theorems of `Props/Pcs.lean` see it. -/
noncomputable def Batch.round {CI DI : Type} (b : Batch F) (g : BB) (logBlowup : Nat) (c : CI) (d : DI) :
    Round BB F CI DI :=
  ⟨d, c, b.map fun x => (evalRowsRev bbGen x.2.1 g (x.1.logN + logBlowup), x.1, x.2.2)⟩

theorem matOk_evalRowsRev (ps : List BB[X]) (hps : ps ≠ []) (g : BB) (k : Nat) :
    MatOk (evalRowsRev bbGen ps g k) k := by
  obtain ⟨m, hm⟩ : ∃ m, 2 ^ k = m + 1 := ⟨2 ^ k - 1, by have := Nat.two_pow_pos k; omega⟩
  have hw : ((evalRowsRev bbGen ps g k).headD []).length = ps.length := by
    simp [evalRowsRev, hm, List.range_succ_eq_map]
  refine ⟨by simp [evalRowsRev], ?_, by rw [hw]; exact List.length_pos_of_ne_nil hps⟩
  intro row hrow
  rw [hw]
  obtain ⟨i, -, rfl⟩ := List.mem_map.1 hrow
  simp

section
variable (scfg : Cfg) (th : TapHash (List Op) U256) (mgr mgrF : Manager) (isize esize isizeF esizeF : Nat)
  (ok : ∀ n w, BcsOk scfg 1 isize esize (assigned bbRep mgr n w))
  {fr : FieldRep F} (fok : FieldOk fr)
  (okF : ∀ n w, BcsOk scfg fr.u32Size isizeF esizeF (assigned fr mgrF n w))
  {X : Ext BB F} (hX : X.Width) (hXc : X.Correct bbGen 27)
  (cfg : Config) (hb : 1 ≤ cfg.logBlowup) (hq : 0 < cfg.numQueries) {g : BB} (hg0 : g ≠ 0)

include ok hXc hb hq

theorem commit_opens (b : Batch F) (hok : b.Ok g cfg.logBlowup) (n : Nat) :
    ∃ c ds n', commit X (tcsInMmcs scfg th bbRep mgr cfg.numQueries) g cfg n b.evals = some (c, ds, n') ∧
      (tcsInMmcs scfg th bbRep mgr cfg.numQueries).Opens cfg.numQueries ds c
        (b.map fun x => evalRowsRev bbGen x.2.1 g (x.1.logN + cfg.logBlowup)) := by
  obtain ⟨c, ds, n', h1, h2⟩ := tcsInMmcs_opens th bbRep_ok mgr isize esize ok cfg.numQueries hq
    (b.map fun x => evalRowsRev bbGen x.2.1 g (x.1.logN + cfg.logBlowup))
    (by simpa using hok.nonempty) (by
      intro m hm
      obtain ⟨x, hx, rfl⟩ := List.mem_map.1 hm
      have := hok.size x hx
      exact ⟨_, by omega, by omega, matOk_evalRowsRev _ (hok.columns x hx) g _⟩) (by
      rw [List.pairwise_map]
      refine hok.sorted.imp ?_
      intro x y hxy
      simp only [evalRowsRev, List.length_map, List.length_range]
      exact Nat.pow_le_pow_right (by omega) (by omega)) n
  refine ⟨c, ds, n', ?_, h2⟩
  have := C72_commit (MI := tcsInMmcs scfg th bbRep mgr cfg.numQueries) (g := g) (cfg := cfg) hXc n
    (b.map fun x => (x.1, x.2.1)) (by
      intro y hy
      obtain ⟨x, hx, rfl⟩ := List.mem_map.1 hy
      exact ⟨hok.shift x hx, by have := hok.size x hx; simp only; omega, hok.degree x hx⟩)
  rw [List.map_map, List.map_map] at this
  rw [← h1]
  exact this

/-- **C72** at the parameters of the code base: BabyBear, taptree commitments with any bit commitment
operators that work, a challenge field extending BabyBear, any challenger that does not panic.
Committing does not panic. -/
theorem C72_deployed_commit (b : Batch F) (hok : b.Ok g cfg.logBlowup) (n : Nat) :
    ∃ c ds n', commit X (tcsInMmcs scfg th bbRep mgr cfg.numQueries) g cfg n b.evals =
      some (c, ds, n') := by
  obtain ⟨c, ds, n', h, -⟩ := commit_opens scfg th mgr isize esize ok hXc cfg hb hq b hok n
  exact ⟨c, ds, n', h⟩

theorem honest_of_batches (batches : List (Batch F × List (Vector U32 8) × List (Committed BB U256)))
    (hne : batches ≠ []) (hok : ∀ x ∈ batches, x.1.Ok g cfg.logBlowup)
    (hcommit : ∀ x ∈ batches, ∃ n n', commit X (tcsInMmcs scfg th bbRep mgr cfg.numQueries) g cfg n
      x.1.evals = some (x.2.1, x.2.2, n')) :
    HonestRounds bbGen g (tcsInMmcs scfg th bbRep mgr cfg.numQueries) cfg 27
      (batches.map fun x => x.1.round g cfg.logBlowup x.2.1 x.2.2) := by
  have hlde : ∀ (b : Batch F) (y : Dom BB × List BB[X] × List F), y ∈ b → b.Ok g cfg.logBlowup →
      IsLde bbGen g cfg.logBlowup
        (evalRowsRev bbGen y.2.1 g (y.1.logN + cfg.logBlowup), y.1, y.2.2) y.2.1 :=
    fun b y hy hb => ⟨rfl, hb.degree y hy⟩
  refine ⟨by simpa using hne, ?_, ?_, ?_⟩
  · intro r hrm
    obtain ⟨x, hx, rfl⟩ := List.mem_map.1 hrm
    refine ⟨by simpa [Batch.round] using (hok x hx).nonempty, ?_, ?_, ?_⟩
    · intro e he
      obtain ⟨y, hy, rfl⟩ := List.mem_map.1 he
      simp [evalRowsRev, entryHeight]
    · intro e he
      obtain ⟨y, hy, rfl⟩ := List.mem_map.1 he
      exact (matOk_evalRowsRev _ ((hok x hx).columns y hy) g _).rect
    · obtain ⟨n0, n1, hc⟩ := hcommit x hx
      obtain ⟨c, ds, n', h1, h2⟩ := commit_opens scfg th mgr isize esize ok hXc cfg hb hq x.1 (hok x hx) n0
      rw [hc] at h1
      simp only [Option.some.injEq, Prod.mk.injEq] at h1
      obtain ⟨e1, e2, -⟩ := h1
      rw [← e1, ← e2] at h2
      simpa [Batch.round, List.map_map, Function.comp_def] using h2
  · intro r hrm e he
    obtain ⟨x, hx, rfl⟩ := List.mem_map.1 hrm
    obtain ⟨y, hy, rfl⟩ := List.mem_map.1 he
    exact ⟨y.2.1, hlde x.1 y hy (hok x hx)⟩
  · intro r hrm e he
    obtain ⟨x, hx, rfl⟩ := List.mem_map.1 hrm
    obtain ⟨y, hy, rfl⟩ := List.mem_map.1 he
    exact (hok x hx).size y hy

include fok okF hX hg0

/-- **C72** at the parameters of the code base: opening committed batches does not panic, returns the
values of the polynomials, and the verifier accepts. -/
theorem C72_deployed {Ch W : Type} {Kc : Chall Ch (List (Vector U32 8)) F W} {Good : Ch → Prop}
    (hK : Kc.Total Good 27) (hbits : ∀ ch n i ch', Kc.sampleBits ch n = some (i, ch') → i < 2 ^ n)
    (batches : List (Batch F × List (Vector U32 8) × List (Committed BB U256))) (hne : batches ≠ [])
    (hok : ∀ x ∈ batches, x.1.Ok g cfg.logBlowup)
    (hcommit : ∀ x ∈ batches, ∃ n n', commit X (tcsInMmcs scfg th bbRep mgr cfg.numQueries) g cfg n
      x.1.evals = some (x.2.1, x.2.2, n'))
    (hpts : ∃ x ∈ batches, ∃ y ∈ x.1, y.2.2 ≠ [])
    (n : Nat) (ch : Ch) (hch : Good ch) :
    let MI := tcsInMmcs scfg th bbRep mgr cfg.numQueries
    let M := tcsMmcs scfg th fr mgrF cfg.numQueries
    ∃ chPow, Good chPow ∧ ∀ w ch1, Kc.checkWitness chPow cfg.powBits w = some (true, ch1) →
      ∃ proof n' ch', Pcs.open X bbGen g MI M Kc cfg (batches.map fun x => x.1.openArg x.2.2) n ch w =
          some (batches.map fun x => x.1.map fun y => y.2.2.map fun z => y.2.1.map fun p => aeval z p,
            proof, n', ch') ∧
        verify bbGen g MI M Kc cfg (batches.map fun x => x.1.verifyArg x.2.1) proof ch = .ok ch' := by
  intro MI M
  set rounds := batches.map fun x => x.1.round g cfg.logBlowup x.2.1 x.2.2 with hrounds
  have hlde : ∀ (b : Batch F) (y : Dom BB × List BB[X] × List F), y ∈ b → b.Ok g cfg.logBlowup →
      IsLde bbGen g cfg.logBlowup
        (evalRowsRev bbGen y.2.1 g (y.1.logN + cfg.logBlowup), y.1, y.2.2) y.2.1 :=
    fun b y hy hb => ⟨rfl, hb.degree y hy⟩
  have hr := honest_of_batches scfg th mgr isize esize ok hXc cfg hb hq batches hne hok hcommit
  rw [← hrounds] at hr
  have hM : M.Honest cfg.numQueries 27 :=
    (tcsMmcs_honest th fok mgrF isizeF esizeF okF cfg.numQueries hq).mono (by omega)
  have harg : (batches.map fun x => x.1.openArg x.2.2) = rounds.map Round.prover := by
    rw [hrounds, List.map_map]
    apply List.map_congr_left
    intro x _
    simp [Batch.openArg, Round.prover, Batch.round, List.map_map, Function.comp_def]
  obtain ⟨chPow, hgood, hopen⟩ := C72_honest_no_panic hX hXc bbGen_twoAdic (by omega) hg0 hM hb hbits hK
    hr (by
      obtain ⟨x, hx, y, hy, hyne⟩ := hpts
      exact ⟨_, List.mem_map.2 ⟨x, hx, rfl⟩, _, List.mem_map.2 ⟨y, hy, rfl⟩, hyne⟩) (by
      intro r hrm e he z hz i
      obtain ⟨x, hx, rfl⟩ := List.mem_map.1 hrm
      obtain ⟨y, hy, rfl⟩ := List.mem_map.1 he
      exact (hok x hx).points y hy z hz i) n ch hch
  refine ⟨chPow, hgood, fun w ch1 hw => ?_⟩
  obtain ⟨⟨values, proof, n', ch'⟩, hp⟩ := hopen w ch1 hw
  obtain ⟨hv, hacc⟩ := C72_honest_opening_accepted hX hXc bbGen_twoAdic hg0 hM hb hbits hr hp
  have hvals : values = batches.map fun x => x.1.map fun y => y.2.2.map fun z => y.2.1.map fun p =>
      aeval z p := by
    rw [hrounds] at hv
    clear hacc hp hopen hpts hcommit hne hr harg hrounds
    induction batches generalizing values with
    | nil => cases hv; rfl
    | cons x batches ih =>
      rw [List.map_cons] at hv
      obtain ⟨v, vs, h1, h2, rfl⟩ := List.forall₂_cons_left_iff.1 hv
      rw [List.map_cons, ← ih (fun y hy => hok y (List.mem_cons_of_mem _ hy)) vs h2]
      congr 1
      have hx := hok x List.mem_cons_self
      have hmem : ∀ y ∈ x.1, y ∈ x.1 := fun _ h => h
      simp only [Batch.round] at h1
      generalize hl : x.1 = l at h1 hmem
      have hmem' : ∀ y ∈ l, y ∈ x.1 := by rw [hl]; exact fun _ h => h
      clear hmem hl h2 hv
      induction l generalizing v with
      | nil => cases h1; rfl
      | cons y l ihl =>
        rw [List.map_cons] at h1
        obtain ⟨u, us, g1, g2, rfl⟩ := List.forall₂_cons_left_iff.1 h1
        rw [List.map_cons, ← ihl us g2 fun z hz => hmem' z (List.mem_cons_of_mem _ hz)]
        congr 1
        exact g1 _ (hlde x.1 y (hmem' y List.mem_cons_self) hx)
  refine ⟨proof, n', ch', by rw [harg, hp, hvals], ?_⟩
  rw [← hacc]
  congr 1
  rw [hvals, hrounds, List.zipWith_map, List.zipWith_self]
  apply List.map_congr_left
  intro x _
  simp only [Batch.verifyArg, Round.verifier, Batch.round, List.zipWith_map, List.zipWith_self]
  congr 1
  apply List.map_congr_left
  intro y _
  congr 1
  generalize y.2.2 = l
  induction l with
  | nil => rfl
  | cons z l ih => simp [ih]

end

end

/-! ### Instances -/

section
variable [LinearOrder U256]

theorem five_outside (k : Nat) (hk : k ≤ 3) (i : Nat) : algebraMap BB BB (31 * bbGen k ^ i) ≠ 5 := by
  intro h
  have h1 : (31 * bbGen k ^ i : BB) ^ 8 = 5 ^ 8 := by
    rw [show (31 * bbGen k ^ i : BB) = 5 from h]
  have h2 : (bbGen k ^ i) ^ 8 = 1 := by
    have h8 : (8 : Nat) = 2 ^ k * 2 ^ (3 - k) := by
      rw [← pow_add, Nat.add_sub_cancel' hk]; rfl
    rw [← pow_mul, mul_comm i, h8, mul_assoc, pow_mul, bbGen_twoAdic.order (by omega), one_pow]
  rw [mul_pow, h2, mul_one] at h1
  revert h1
  decide +kernel

/-- Two batches with three heights: `X³` and `X + 1` on the subgroup of order 4, `X` on the coset
`3 · {1, -1}`, the constant 9 on the point 1, and `2 X³` on the coset `7 · H`; all opened at 5. -/
noncomputable def exBatch1 : Batch BB := [(⟨2, 1⟩, [X ^ 3, X + 1], [5]), (⟨1, 3⟩, [(X : BB[X])], [5]),
  (⟨0, 1⟩, [9], [5])]
@[inherit_doc exBatch1] noncomputable def exBatch2 : Batch BB := [(⟨2, 7⟩, [2 * X ^ 3], [5])]

theorem exBatch1_ok : exBatch1.Ok 31 1 := by
  refine ⟨by simp [exBatch1], by simp [exBatch1], ?_, by simp [exBatch1], by simp [exBatch1], ?_, ?_⟩
  · simp only [exBatch1, List.mem_cons, List.not_mem_nil, or_false, forall_eq_or_imp, forall_eq]
    decide
  · simp only [exBatch1, List.mem_cons, List.not_mem_nil, or_false, forall_eq_or_imp, forall_eq]
    refine ⟨⟨by simp, ?_⟩, by simp, by simp⟩
    have : (X + 1 : BB[X]).natDegree ≤ 1 := by compute_degree
    omega
  · simp only [exBatch1, List.mem_cons, List.not_mem_nil, or_false, forall_eq_or_imp, forall_eq]
    exact ⟨five_outside 3 (by omega), five_outside 2 (by omega), five_outside 1 (by omega)⟩

theorem exBatch2_ok : exBatch2.Ok 31 1 := by
  refine ⟨by simp [exBatch2], by simp [exBatch2], ?_, by simp [exBatch2], by simp [exBatch2], ?_, ?_⟩
  · simp only [exBatch2, List.mem_cons, List.not_mem_nil, or_false, forall_eq]
    decide
  · simp only [exBatch2, List.mem_cons, List.not_mem_nil, or_false, forall_eq]
    have : (2 * X ^ 3 : BB[X]).natDegree ≤ 3 := by compute_degree
    omega
  · simp only [exBatch2, List.mem_cons, List.not_mem_nil, or_false, forall_eq]
    exact five_outside 3 (by omega)

/-- C72 has no unmet hypotheses: with Winternitz commitments, the BLAKE3 challenger over any hash and
interpolation by Lagrange's formula, these two batches are committed, opened and verified. -/
theorem C72_instance (scfg : Cfg) (h20 : ∀ x, (scfg.hash160 x).length = 20)
    (th : TapHash (List Op) U256) (hash : List UInt8 → U256) (w : U32) :
    ∃ mgr : Manager,
    let MI := tcsInMmcs scfg th bbRep mgr 2
    let M := tcsMmcs scfg th bbRep mgr 2
    let Kc := bbChall (blake3Perm hash)
    let ch := Chal.new 16 (fromU64 0)
    let cfg : Config := ⟨1, 2, 0, true⟩
    ∃ c1 d1 n1 c2 d2 n2,
      commit (lagrangeExt bbGen : Ext BB BB) MI 31 cfg 0 exBatch1.evals = some (c1, d1, n1) ∧
      commit (lagrangeExt bbGen : Ext BB BB) MI 31 cfg n1 exBatch2.evals = some (c2, d2, n2) ∧
      ∃ proof n' ch', Pcs.open (lagrangeExt bbGen) bbGen 31 MI M Kc cfg
          [exBatch1.openArg d1, exBatch2.openArg d2] n2 ch w =
        some ([[[[125, 6]], [[5]], [[9]]], [[[250]]]], proof, n', ch') ∧
      verify bbGen 31 MI M Kc cfg [exBatch1.verifyArg c1, exBatch2.verifyArg c2] proof ch = .ok ch' := by
  obtain ⟨b, c, -, -, h⟩ := winternitz_ok scfg h20 ['b', '1', '3', '8'] (by decide) 0
  have ok : ∀ n w, BcsOk scfg 1 20 20 (assigned bbRep (fun _ _ => winternitzBc scfg b c) n w) := by
    intro n w
    refine ⟨h, ?_⟩
    intro bc hbc
    obtain ⟨-, -, rfl⟩ := List.mem_map.1 hbc
    exact h
  refine ⟨fun _ _ => winternitzBc scfg b c, ?_⟩
  intro MI M Kc ch cfg
  have hXc : (lagrangeExt bbGen : Ext BB BB).Correct bbGen 27 := lagrangeExt_correct bbGen_twoAdic
  have hch : GoodChal (blake3Perm hash) ch := ⟨_, _, inv_new (by omega)⟩
  obtain ⟨c1, d1, n1, e1⟩ := C72_deployed_commit scfg th _ 20 20 ok hXc cfg (by decide) (by decide) exBatch1
    exBatch1_ok 0
  obtain ⟨c2, d2, n2, e2⟩ := C72_deployed_commit scfg th _ 20 20 ok hXc cfg (by decide) (by decide) exBatch2
    exBatch2_ok n1
  refine ⟨c1, d1, n1, c2, d2, n2, e1, e2, ?_⟩
  have hp := fun s (_ : s.length = 16) => blake3Perm_length hash s
  obtain ⟨chPow, hgood, hall⟩ := C72_deployed scfg th _ _ 20 20 20 20 ok bbRep_ok ok
    (lagrangeExt_width bbGen) hXc cfg (by decide) (by decide) (by decide : (31 : BB) ≠ 0)
    (bbChall_total (blake3Perm hash) hp) (bbChall_bits _)
    [(exBatch1, c1, d1), (exBatch2, c2, d2)] (by simp) (by
      intro x hx
      simp only [List.mem_cons, List.not_mem_nil, or_false] at hx
      rcases hx with rfl | rfl
      · exact exBatch1_ok
      · exact exBatch2_ok) (by
      intro x hx
      simp only [List.mem_cons, List.not_mem_nil, or_false] at hx
      rcases hx with rfl | rfl
      · exact ⟨_, _, e1⟩
      · exact ⟨_, _, e2⟩)
    ⟨(exBatch2, c2, d2), by simp, (⟨2, 7⟩, [2 * X ^ 3], [5]), by simp [exBatch2], by simp⟩ n2 ch hch
  obtain ⟨ch1, hw⟩ := checkWitness_zero hp chPow hgood w
  obtain ⟨proof, n', ch', o1, o2⟩ := hall w ch1 hw
  refine ⟨proof, n', ch', ?_, o2⟩
  refine Eq.trans o1 ?_
  simp only [List.map_cons, List.map_nil, exBatch1, exBatch2, map_pow, aeval_X, map_add, map_one,
    map_mul, map_ofNat]
  norm_num

/-- C73 at the parameters of the code base: the honest proof for `2 X³` at 5 is accepted with any
claimed value. -/
theorem C73_instance (scfg : Cfg) (h20 : ∀ x, (scfg.hash160 x).length = 20)
    (th : TapHash (List Op) U256) (hash : List UInt8 → U256) (w : U32) :
    ∃ mgr : Manager,
    let MI := tcsInMmcs scfg th bbRep mgr 2
    let M := tcsMmcs scfg th bbRep mgr 2
    let Kc := bbChall (blake3Perm hash)
    let ch := Chal.new 16 (fromU64 0)
    let cfg : Config := ⟨1, 2, 0, true⟩
    ∃ c d n1 proof n' ch',
      commit (lagrangeExt bbGen : Ext BB BB) MI 31 cfg 0 exBatch2.evals = some (c, d, n1) ∧
      Pcs.open (lagrangeExt bbGen) bbGen 31 MI M Kc cfg [exBatch2.openArg d] n1 ch w =
        some ([[[[250]]]], proof, n', ch') ∧
      ∀ v : BB, verify bbGen 31 MI M Kc cfg [(c, [(⟨2, 7⟩, [(5, [v])])])] proof ch = .ok ch' := by
  obtain ⟨b, c, -, -, h⟩ := winternitz_ok scfg h20 ['b', '1', '3', '8'] (by decide) 0
  have ok : ∀ n w, BcsOk scfg 1 20 20 (assigned bbRep (fun _ _ => winternitzBc scfg b c) n w) := by
    intro n w
    refine ⟨h, ?_⟩
    intro bc hbc
    obtain ⟨-, -, rfl⟩ := List.mem_map.1 hbc
    exact h
  refine ⟨fun _ _ => winternitzBc scfg b c, ?_⟩
  intro MI M Kc ch cfg
  have hXc : (lagrangeExt bbGen : Ext BB BB).Correct bbGen 27 := lagrangeExt_correct bbGen_twoAdic
  have hch : GoodChal (blake3Perm hash) ch := ⟨_, _, inv_new (by omega)⟩
  obtain ⟨c2, d2, n2, e2⟩ := C72_deployed_commit scfg th _ 20 20 ok hXc cfg (by decide) (by decide) exBatch2
    exBatch2_ok 0
  have hp := fun s (_ : s.length = 16) => blake3Perm_length hash s
  obtain ⟨chPow, hgood, hall⟩ := C72_deployed scfg th _ _ 20 20 20 20 ok bbRep_ok ok
    (lagrangeExt_width bbGen) hXc cfg (by decide) (by decide) (by decide : (31 : BB) ≠ 0)
    (bbChall_total (blake3Perm hash) hp) (bbChall_bits _)
    [(exBatch2, c2, d2)] (by simp) (by
      intro x hx
      obtain rfl := List.mem_singleton.1 hx
      exact exBatch2_ok) (by
      intro x hx
      obtain rfl := List.mem_singleton.1 hx
      exact ⟨_, _, e2⟩)
    ⟨(exBatch2, c2, d2), by simp, (⟨2, 7⟩, [2 * X ^ 3], [5]), by simp [exBatch2], by simp⟩ n2 ch hch
  obtain ⟨ch1, hw⟩ := checkWitness_zero hp chPow hgood w
  obtain ⟨proof, n', ch', o1, o2⟩ := hall w ch1 hw
  refine ⟨c2, d2, n2, proof, n', ch', e2, ?_, ?_⟩
  · refine Eq.trans o1 ?_
    simp only [List.map_cons, List.map_nil, exBatch2, map_pow, aeval_X, map_mul, map_ofNat]
    norm_num
  · intro v
    have hr := honest_of_batches scfg th _ 20 20 ok hXc cfg (by decide) (by decide) [(exBatch2, c2, d2)] (by simp) (by
      intro x hx
      obtain rfl := List.mem_singleton.1 hx
      exact exBatch2_ok) (by
      intro x hx
      obtain rfl := List.mem_singleton.1 hx
      exact ⟨_, _, e2⟩)
    refine C73_violated_any_values_accepted (lagrangeExt_width bbGen) hXc bbGen_twoAdic
      (by decide : (31 : BB) ≠ 0)
      ((tcsMmcs_honest th bbRep_ok _ 20 20 ok 2 (by omega)).mono (by omega)) (by decide) (bbChall_bits _)
      hr (k := 2) (by
        simp only [Batch.round, exBatch2, List.map_cons, List.map_nil, List.mem_singleton, forall_eq])
      (w := w) (s := n2) (values := [[[[250]]]])
      (proof := proof) (s' := n') ?_ [[[[v]]]] (by simp)
    refine Eq.trans o1 ?_
    simp only [List.map_cons, List.map_nil, exBatch2, map_pow, aeval_X, map_mul, map_ofNat]
    norm_num

end

end TapStark.Pcs
