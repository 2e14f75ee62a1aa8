import Verif.Props.Limits
import Verif.Props.WideBc

/-
C89: leaves of a commitment under the limit of 1000 stack elements.
-/

namespace TapStark

theorem acceptsL_accepts {cfg : Cfg} {p : List Op} {w : List Elem} (h : acceptsL cfg p w = true) : accepts cfg p w = true := by
  unfold acceptsL runWitness at h
  split at h
  · rename_i e a hr
    split at hr
    · unfold accepts
      rw [runL_run p hr]
      exact h
    · cases hr
  · cases h

end TapStark

namespace TapStark.Tcs

open TapStark.Tap

theorem eff_check (v : Nat) : Eff [Op.num v, .equalverify] 1 0 2 2 :=
  .of_shape [.num 0, .equalverify] rfl (.of_scan (by decide +kernel))

theorem eff_wordChecks (v : List Nat) (h : v ≠ []) : Eff (wordChecks v) v.length 0 (v.length + 1) (v.length + 1) := by
  unfold wordChecks
  rw [← List.length_reverse (as := v)]
  have h : v.reverse ≠ [] := by simpa using h
  generalize v.reverse = l at h
  induction l with
  | nil => exact absurd rfl h
  | cons x l ih =>
    rw [List.flatMap_cons]
    rcases eq_or_ne l [] with rfl | hl
    · simpa using eff_check x
    · have := List.length_pos_iff.2 hl
      exact (eff_check x).seq (ih hl) l.length 0 (by omega) (by rw [List.length_cons]; omega) (by omega)
        (by rw [List.length_cons]; omega) (by rw [List.length_cons]; omega)

/-- The operator's script takes a witness of 20 elements per word and needs room for 17 more elements. -/
def LockRoom (words : Nat) (bc : Bc) : Prop := Eff bc.lock (20 * words) words (20 * words + 17) (20 * words + 17)

theorem eff_evals {words : Nat} (hw : 0 < words) : ∀ (bvs : List (Bc × List Nat)),
    (∀ p ∈ bvs, LockRoom words p.1 ∧ p.2.length = words) → bvs ≠ [] →
    Eff (bvs.flatMap fun p => p.1.lock ++ wordChecks p.2) (20 * words * bvs.length) 0
      (20 * words * bvs.length + 17) (20 * words * bvs.length + 17) := by
  intro bvs
  induction bvs with
  | nil => intro _ h; exact absurd rfl h
  | cons p bvs ih =>
    intro hp _
    obtain ⟨h1, h2⟩ := hp p (by simp)
    have e : Eff (p.1.lock ++ wordChecks p.2) (20 * words) 0 (20 * words + 17) (20 * words + 17) := by
      have := eff_wordChecks p.2 (by rintro h; rw [h] at h2; simp at h2; omega)
      rw [h2] at this
      exact h1.seq this 0 0 rfl rfl rfl (by omega) (by omega)
    rw [List.flatMap_cons]
    rcases eq_or_ne bvs [] with rfl | hb
    · simpa using e
    · rw [List.length_cons, Nat.mul_succ]
      exact e.seq (ih (fun q hq => hp q (by simp [hq])) hb) (20 * words * bvs.length) 0 (by omega) (by omega) (by omega)
        (by omega) (by omega)

theorem eff_leaf {words : Nat} (hw : 0 < words) {l : CommittedLeaf} (hi : LockRoom 1 l.useBcs.index)
    (he : ∀ bc ∈ l.useBcs.evals, LockRoom words bc) (hlen : l.useBcs.evals.length ≤ l.evaluations.length)
    (hv : ∀ v ∈ l.evaluations, v.length = words) {p : List Op} (hp : l.script = some p) :
    Eff p (20 * (1 + words * l.useBcs.evals.length)) 1 (20 * (1 + words * l.useBcs.evals.length) + 17)
      (20 * (1 + words * l.useBcs.evals.length) + 17) := by
  rw [script_of hlen] at hp
  obtain rfl := Option.some.inj hp
  rw [zip_take]
  have e1 : Eff (l.useBcs.index.lock ++ [Op.num l.index, .equalverify]) 20 0 37 37 :=
    Eff.seq hi (eff_check l.index) 0 0 rfl rfl rfl (by omega) (by omega)
  have e3 : Eff [Op.num 1] 0 1 1 1 := .of_scan (by decide +kernel)
  have hz : (l.useBcs.evals.zip l.evaluations).length = l.useBcs.evals.length := by simp [hlen]
  rcases eq_or_ne (l.useBcs.evals.zip l.evaluations) [] with hb | hb
  · rw [hb] at hz ⊢
    rw [← hz]
    exact (e1.append (Eff.nil 0)).seq e3 0 0 rfl rfl rfl (by simp) (by simp)
  · have e2 := eff_evals hw (l.useBcs.evals.zip l.evaluations) (by
      intro q hq
      have := List.of_mem_zip hq
      exact ⟨he _ this.1, hv _ this.2⟩) hb
    rw [hz] at e2
    have e12 := e1.seq e2 (20 * words * l.useBcs.evals.length) 0 (N := 20 * (1 + words * l.useBcs.evals.length)) (O := 0)
      (K := 20 * (1 + words * l.useBcs.evals.length) + 17) (T := 20 * (1 + words * l.useBcs.evals.length) + 17)
      (by omega) (by rw [Nat.mul_assoc]; omega) (by omega) (by rw [Nat.mul_assoc]; omega) (by rw [Nat.mul_assoc]; omega)
    exact e12.seq e3 0 0 rfl rfl rfl (by omega) (by omega)

/-- Spending a leaf under the limit: with `width` values of `words` words, the leaf's script accepts a witness under
Bitcoin's rules iff it accepts it without the limit and `20 (1 + words · width) + 17 ≤ 1000`. -/
theorem leaf_limit {cfg : Cfg} {words : Nat} (hw : 0 < words) {l : CommittedLeaf}
    (ok : BcsOk cfg words 20 (20 * words) l.useBcs) (hi : LockRoom 1 l.useBcs.index)
    (he : ∀ bc ∈ l.useBcs.evals, LockRoom words bc) (hlen : l.useBcs.evals.length ≤ l.evaluations.length)
    (hv : ∀ v ∈ l.evaluations, v.length = words) {p : List Op} (hp : l.script = some p) (w : List Elem) :
    acceptsL cfg p w = true ↔ accepts cfg p w = true ∧ 1 + words * l.useBcs.evals.length ≤ 49 := by
  have eff := eff_leaf hw hi he hlen hv hp
  have size : accepts cfg p w = true → w.length = 20 * (1 + words * l.useBcs.evals.length) := by
    intro h
    obtain ⟨wi, ws, rfl, h1, h2, -, h3⟩ := (accepts_script ok hlen hv hp w).1 h
    have h4 : ws.length = l.useBcs.evals.length := by
      have := List.Forall₂.length_eq h3
      simp [hlen] at this
      exact this.symm
    have h5 : ws.flatten.length = ws.length * (20 * words) := by
      rw [List.length_flatten]
      clear h h4 h3
      induction ws with
      | nil => simp
      | cons x ws ih =>
        have := ih (fun y hy => h2 y (by simp [hy]))
        rw [List.map_cons, List.sum_cons, this, h2 x (by simp), List.length_cons]
        ring
    rw [List.length_append, h1, h5, h4]
    ring
  constructor
  · intro h
    have ha := acceptsL_accepts h
    have hl := size ha
    refine ⟨ha, ?_⟩
    by_contra hn
    unfold acceptsL runWitness at h
    split at h
    · rename_i e a hr
      split at hr
      · rename_i hlim
        have := (eff.runs cfg (lim := stackLimit) (s := ⟨w, [], []⟩) rfl (j := 0) (by simp [St.size, hl])).2.1
          (by simpa [St.size] using hlim) (by rw [stackLimit]; omega)
        rw [this] at hr
        cases hr
      · cases hr
    · cases h
  · rintro ⟨h, hn⟩
    have hl := size h
    have := (eff.runs cfg (lim := stackLimit) (s := ⟨w, [], []⟩) rfl (j := 0) (by simp [St.size, hl])).1
      (by rw [stackLimit]; omega) (by simp [St.size, hl, stackLimit]; omega)
    unfold acceptsL runWitness
    rw [if_pos (by rw [stackLimit]; omega), this]
    exact h

variable {F H : Type} [LinearOrder H]

/-- **C89** Committing to matrices with `width` values per leaf and opening any index gives a leaf whose script accepts
the honest witness under the limit of 1000 stack elements iff there are at most 48 words per leaf, counting `u32Size` per
value (48 columns over the base field, 12 over the extension); beyond that the script accepts no witness at all. -/
theorem C89_leaf_spendable {cfg : Cfg} (th : TapHash (List Op) H) {fr : FieldRep F}
    (fok : FieldOk fr) (mgr : Manager) (n : Nat) (mats : List (Mat F)) (L : Nat)
    (hh : Heights mats L) (h1 : 1 ≤ L) (hL : L < 32)
    (ok : ∀ w, BcsOk cfg fr.u32Size 20 (20 * fr.u32Size) (assigned fr mgr n w))
    (room : ∀ k, LockRoom 1 (mgr k 1) ∧ LockRoom fr.u32Size (mgr k fr.u32Size)) :
    ∃ d n', commitPolys th fr mgr n mats = some (d, n') ∧ ∀ i, i < 2 ^ L →
      ∃ proof p w, openAt d i = some (proof, leafRow mats L i) ∧ proof.leaf.script? = some p ∧
        CommittedLeaf.witness ⟨proof.useBcs, proof.queryIndex, (leafRow mats L i).map fr.words⟩ = some w ∧
        verify cfg th fr d.tree.root.hash proof (leafRow mats L i) = some true ∧
        (fr.u32Size * (leafRow mats L i).length ≤ 48 → acceptsL cfg p w.reverse = true) ∧
        (48 < fr.u32Size * (leafRow mats L i).length → ∀ w', acceptsL cfg p w' = false) := by
  obtain ⟨d, scripts, hc, hm, hu, hs, hob, hsc⟩ := commit_spec th fok mgr n hh hL
  refine ⟨d, _, hc, fun i hi => ?_⟩
  have h2 : 2 ≤ scripts.length := by
    rw [hs]; calc 2 = 2 ^ 1 := rfl
      _ ≤ 2 ^ L := Nat.pow_le_pow_right (by omega) h1
  have hi' : i < scripts.length := by omega
  obtain ⟨leaf, e1, e2, e3⟩ := getTapleaf_of_obtained hob h2 hi'
  have hlen : d.useBcs.evals.length = (leafRow mats L i).length := by
    rw [hu, leafRow_length_eq hi]; simp [assigned]
  have hi31 : i < 2 ^ 31 := lt_of_lt_of_le hi (Nat.pow_le_pow_right (by omega) (by omega))
  obtain ⟨w, w1, w2⟩ := honest_accepts fok (u := d.useBcs) (by rw [hu]; exact ok _) hi31 hlen
    (List.prefix_refl _) (hsc i hi')
  have hpos : 0 < fr.u32Size := by rcases fok.size with h | h <;> omega
  have lim := leaf_limit (cfg := cfg) hpos (l := ⟨d.useBcs, i, (leafRow mats L i).map fr.words⟩) (by rw [hu]; exact ok _)
    (by rw [hu]; exact (room _).1) (by
      intro bc hbc
      simp only [hu, assigned] at hbc
      obtain ⟨k, -, rfl⟩ := List.mem_map.1 hbc
      exact (room _).2) (by simp [hlen]) (words_lengths fok _) (hsc i hi')
  simp only [hlen] at lim
  refine ⟨⟨leaf, d.useBcs, i⟩, scripts[i], w, ?_, e2, w1, ?_, fun hb => (lim _).2 ⟨w2, by omega⟩, fun hb w' => ?_⟩
  · simp [openAt, hm, paddingMatrix_eq hh, Committed.queryProof, e1, rows_get _ _ hi]
  · simp [verify, w1, verifyProof, e2, e3, w2]
  · by_contra hn
    have := ((lim w').1 (by simpa using hn)).2
    omega

/-! #### The repository's Winternitz commitments -/

theorem consBc_room {n : Nat} (hn : 0 < n) {b bs : Bc} (h1 : LockRoom 1 b) (h2 : LockRoom n bs) :
    LockRoom (n + 1) (consBc b bs) := by
  have t : Eff [Op.toAlt] 1 1 1 1 := .of_scan (by decide +kernel)
  have f : Eff [Op.fromAlt] 1 1 1 1 := .of_scan (by decide +kernel)
  unfold LockRoom at *
  have e3 := h2.seq f 1 n (N := 20 * n + 1) (O := n + 1) (K := 20 * n + 18) (T := 20 * n + 18) (by omega) (by omega)
    (by omega) (by omega) (by omega)
  have e2 := t.seq e3 (20 * n) 0 (N := 20 * n + 1) (O := n + 1) (K := 20 * n + 18) (T := 20 * n + 18) (by omega) (by omega)
    (by omega) (by omega) (by omega)
  exact h1.seq e2 (20 * n) 0 (by omega) (by omega) (by omega) (by omega) (by omega)

/-- The manager that uses one Winternitz commitment for every word. -/
theorem winternitz_manager (cfg : Cfg) (h20 : ∀ x, (cfg.hash160 x).length = 20) (key : List Char)
    (hk : (hexDecode key).isSome) {fr : FieldRep F} (fok : FieldOk fr) : ∃ mgr : Manager,
      (∀ n w, BcsOk cfg fr.u32Size 20 (20 * fr.u32Size) (assigned fr mgr n w)) ∧
      ∀ k, LockRoom 1 (mgr k 1) ∧ LockRoom fr.u32Size (mgr k fr.u32Size) := by
  obtain ⟨b, c, -, hc, h⟩ := winternitz_ok cfg h20 key hk 0
  have r : LockRoom 1 (winternitzBc cfg b c) := eff_recover hc
  have r4 := consBc_room (by omega) r (consBc_room (by omega) r (consBc_room (by omega) r r))
  refine ⟨wideManager (winternitzBc cfg b c), fun n w => ?_, fun k => ⟨r, ?_⟩⟩
  · rcases fok.size with hf | hf
    · rw [hf]
      refine ⟨h, ?_⟩
      intro bc hb
      obtain ⟨-, -, rfl⟩ := List.mem_map.1 hb
      rw [wideManager, hf, if_neg (by decide)]
      exact h
    · rw [hf]
      exact wideManager_ok h fr hf n w
  · rcases fok.size with hf | hf
    · rw [hf]; exact r
    · rw [hf]; exact r4

/-- **C89 violated**: two rows of 49 base field columns can be committed to, opened and verified, but under Bitcoin's
limit no witness opens the leaf; with 48 columns the honest witness does. -/
theorem C89_violated_wide (cfg : Cfg) (h20 : ∀ x, (cfg.hash160 x).length = 20) (th : TapHash (List Op) H) :
    ∃ mgr : Manager,
      (∃ d n', commitPolys th babyBearRep mgr 0 [⟨List.replicate 98 5, 49⟩] = some (d, n') ∧
        ∃ proof p, openAt d 1 = some (proof, List.replicate 49 5) ∧ proof.leaf.script? = some p ∧
          verify cfg th babyBearRep d.tree.root.hash proof (List.replicate 49 5) = some true ∧
          ∀ w, acceptsL cfg p w = false) ∧
      ∃ d n', commitPolys th babyBearRep mgr 0 [⟨List.replicate 96 5, 48⟩] = some (d, n') ∧
        ∃ proof p w, openAt d 1 = some (proof, List.replicate 48 5) ∧ proof.leaf.script? = some p ∧
          CommittedLeaf.witness ⟨proof.useBcs, proof.queryIndex, (List.replicate 48 5).map babyBearRep.words⟩ = some w ∧
          acceptsL cfg p w.reverse = true := by
  obtain ⟨mgr, ok, room⟩ := winternitz_manager cfg h20 ['b', '1', '3', '8'] (by decide) babyBearRep_ok
  have hh : ∀ k, 0 < k → Heights [(⟨List.replicate (2 * k) 5, k⟩ : Mat (Fin 0x78000001))] 1 := by
    intro k hk
    have e : (⟨List.replicate (2 * k) 5, k⟩ : Mat (Fin 0x78000001)).height = 2 ^ 1 := by
      simp [Mat.height, hk]
    refine ⟨?_, _, List.mem_singleton.2 rfl, e⟩
    intro m hm
    rw [List.mem_singleton.1 hm]
    exact ⟨1, le_refl _, e⟩
  have row : ∀ k, 0 < k → leafRow [(⟨List.replicate (2 * k) 5, k⟩ : Mat (Fin 0x78000001))] 1 1 = List.replicate k 5 := by
    intro k hk
    simp [leafRow, List.range_succ, Mat.height, rowOf, hk]
    omega
  refine ⟨mgr, ?_, ?_⟩
  · obtain ⟨d, n', h1, h2⟩ := C89_leaf_spendable th babyBearRep_ok mgr 0 _ 1 (hh 49 (by omega)) (by omega) (by omega) (ok 0) room
    obtain ⟨proof, p, w, g1, g2, g3, g4, g5, g6⟩ := h2 1 (by omega)
    rw [row 49 (by omega)] at *
    exact ⟨d, n', h1, proof, p, g1, g2, g4, g6 (by rw [List.length_replicate]; decide)⟩
  · obtain ⟨d, n', h1, h2⟩ := C89_leaf_spendable th babyBearRep_ok mgr 0 _ 1 (hh 48 (by omega)) (by omega) (by omega) (ok 0) room
    obtain ⟨proof, p, w, g1, g2, g3, g4, g5, g6⟩ := h2 1 (by omega)
    rw [row 48 (by omega)] at *
    exact ⟨d, n', h1, proof, p, w, g1, g2, g3, g5 (by rw [List.length_replicate]; decide)⟩

end TapStark.Tcs
