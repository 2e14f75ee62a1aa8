import Verif.Proofs.TcsPad
import Verif.Proofs.TapTree
import Verif.Script.Lemmas

/-! Lemmas about committed leaves and openings. -/

set_option linter.unusedSectionVars false

namespace TapStark.Tcs

open TapStark.Tap

theorem mapM_get_take {α : Type} : ∀ (l : List α) (k : Nat), k ≤ l.length →
    (List.range k).mapM (fun i => l[i]?) = some (l.take k) := by
  intro l k
  induction k with
  | zero => intro _; rfl
  | succ k ih =>
    intro h
    rw [List.range_succ, List.mapM_append, ih (by omega)]
    simp only [List.mapM_cons, List.mapM_nil, Option.bind_eq_bind, Option.bind_some,
      Option.pure_def, List.getElem?_eq_getElem (show k < l.length by omega)]
    congr 1
    rw [List.take_succ_eq_append_getElem (by omega)]

theorem mapM_get_short {α : Type} (l : List α) (k : Nat) (h : l.length < k) :
    (List.range k).mapM (fun i => l[i]?) = none := by
  obtain ⟨j, rfl⟩ : ∃ j, k = l.length + 1 + j := ⟨k - l.length - 1, by omega⟩
  rw [List.range_add, List.mapM_append, List.range_succ, List.mapM_append]
  simp [List.mapM_cons]

theorem mapM_ok {α β : Type} (f : α → Option β) (g : α → β) (l : List α)
    (h : ∀ x ∈ l, f x = some (g x)) : l.mapM f = some (l.map g) := by
  induction l with
  | nil => rfl
  | cons x l ih =>
    rw [List.mapM_cons, h x (by simp), ih (fun y hy => h y (by simp [hy]))]; rfl

/-! ### The leaf script -/

theorem run_checks {cfg : Cfg} {ops : List Op} {rest a : List Elem} :
    ∀ (A : List Nat) (B : List Int), A.length = B.length →
    run cfg ((A.flatMap fun (v : Nat) => [Op.num v, .equalverify]) ++ ops)
        ⟨B.map num ++ rest, a, []⟩ =
      if B = A.map (fun v : Nat => (v : Int)) then run cfg ops ⟨rest, a, []⟩ else none := by
  intro A
  induction A with
  | nil =>
    intro B h
    have : B = [] := List.length_eq_zero_iff.1 h.symm
    subst this; simp
  | cons v A ih =>
    intro B h
    cases B with
    | nil => simp at h
    | cons b B =>
      simp only [List.flatMap_cons, List.cons_append, List.nil_append, List.map_cons]
      rw [run_num _ rfl, run_equalverify _ _ rfl]
      simp only [num_inj]
      by_cases hb : (v : Int) = b
      · rw [if_pos hb, ih B (by simpa using h)]
        simp [hb]
      · rw [if_neg hb, if_neg]
        intro hc
        exact hb (List.cons.inj hc).1.symm

theorem run_wordChecks {cfg : Cfg} {ops : List Op} {rest a : List Elem} (A : List Nat)
    (B : List Int) (h : A.length = B.length) :
    run cfg (wordChecks A ++ ops) ⟨B.reverse.map num ++ rest, a, []⟩ =
      if B = A.map (fun v : Nat => (v : Int)) then run cfg ops ⟨rest, a, []⟩ else none := by
  unfold wordChecks
  rw [run_checks A.reverse B.reverse (by simpa using h)]
  simp only [List.map_reverse, List.reverse_inj]

/-- One operator followed by the comparison of its words. -/
theorem run_lock_checks {cfg : Cfg} {words size : Nat} {bc : Bc} (ok : BcOk cfg words size bc)
    {v : List Nat} (hv : v.length = words) {ops : List Op} {m a : List Elem} {s : St} :
    run cfg (bc.lock ++ wordChecks v ++ ops) ⟨m, a, []⟩ = some s ↔
      ∃ w rest, m = w ++ rest ∧ w.length = size ∧
        Opens cfg bc w (v.map fun x : Nat => (x : Int)) ∧
        run cfg ops ⟨rest, a, []⟩ = some s := by
  rw [List.append_assoc]
  constructor
  · intro h
    rw [run_append] at h
    cases hr : run cfg bc.lock ⟨m, a, []⟩ with
    | none => rw [hr] at h; cases h
    | some s1 =>
      rw [hr] at h
      obtain ⟨w, rest, vs, hm, hw, hvs, ho⟩ := ok.sound m a s1 hr
      have hf := ok.frame w vs ho rest a
      rw [← hm, hr] at hf
      cases hf
      simp only [Option.bind_some] at h
      rw [run_wordChecks v vs (by omega)] at h
      split at h
      · rename_i he
        exact ⟨w, rest, hm, hw, he ▸ ho, h⟩
      · cases h
  · rintro ⟨w, rest, rfl, hw, ho, h⟩
    rw [run_append_of (ok.frame w _ ho rest a), run_wordChecks v _ (by simp), if_pos rfl, h]

/-- The evaluations part of the leaf script. -/
theorem run_evals {cfg : Cfg} {words size : Nat} {ops : List Op} {a : List Elem} {s : St} :
    ∀ (bvs : List (Bc × List Nat)), (∀ p ∈ bvs, BcOk cfg words size p.1 ∧ p.2.length = words) →
    ∀ m, run cfg ((bvs.flatMap fun p => p.1.lock ++ wordChecks p.2) ++ ops) ⟨m, a, []⟩ = some s ↔
      ∃ ws rest, m = ws.flatten ++ rest ∧
        List.Forall₂ (fun p w => w.length = size ∧
          Opens cfg p.1 w (p.2.map fun x : Nat => (x : Int))) bvs ws ∧
        run cfg ops ⟨rest, a, []⟩ = some s := by
  intro bvs
  induction bvs with
  | nil =>
    intro _ m
    constructor
    · intro h; exact ⟨[], m, by simp, .nil, by simpa using h⟩
    · rintro ⟨ws, rest, rfl, h1, h2⟩
      cases h1; simpa using h2
  | cons p bvs ih =>
    intro hp m
    obtain ⟨ok, hl⟩ := hp p (by simp)
    simp only [List.flatMap_cons]
    rw [List.append_assoc, run_lock_checks ok hl]
    constructor
    · rintro ⟨w, rest, rfl, hw, ho, h⟩
      obtain ⟨ws, rest', rfl, h1, h2⟩ := (ih (fun q hq => hp q (by simp [hq])) rest).1 h
      exact ⟨w :: ws, rest', by simp, .cons ⟨hw, ho⟩ h1, h2⟩
    · rintro ⟨ws, rest, rfl, h1, h2⟩
      cases h1 with
      | @cons _ w _ ws hw hws =>
        exact ⟨w, ws.flatten ++ rest, by simp, hw.1, hw.2,
          (ih (fun q hq => hp q (by simp [hq])) _).2 ⟨ws, rest, rfl, hws, h2⟩⟩

/-- The witness pieces for the evaluations open the operators to the words. -/
def Pieces (cfg : Cfg) (bcs : List Bc) (vals : List (List Nat)) (ws : List (List Elem)) : Prop :=
  List.Forall₂ (fun p w => Opens cfg p.1 w (p.2.map fun x : Nat => (x : Int))) (bcs.zip vals) ws

theorem script_of {l : CommittedLeaf} (h : l.useBcs.evals.length ≤ l.evaluations.length) :
    l.script = some (l.useBcs.index.lock ++ [.num l.index, .equalverify] ++
      ((l.useBcs.evals.zip (l.evaluations.take l.useBcs.evals.length)).flatMap
        fun p => p.1.lock ++ wordChecks p.2) ++ [.num 1]) := by
  unfold CommittedLeaf.script
  rw [mapM_get_take _ _ h]; rfl

theorem zip_take {α β : Type} (a : List α) (b : List β) : a.zip (b.take a.length) = a.zip b := by
  induction a generalizing b with
  | nil => simp
  | cons x a ih => cases b with
    | nil => simp
    | cons y b => simp [ih]

theorem accepts_script {cfg : Cfg} {words isize esize : Nat} {l : CommittedLeaf}
    (ok : BcsOk cfg words isize esize l.useBcs)
    (hlen : l.useBcs.evals.length ≤ l.evaluations.length)
    (hw : ∀ v ∈ l.evaluations, v.length = words) {p : List Op} (hp : l.script = some p)
    (w : List Elem) :
    accepts cfg p w = true ↔ ∃ wi ws, w = wi ++ ws.flatten ∧ wi.length = isize ∧
      (∀ x ∈ ws, x.length = esize) ∧
      Opens cfg l.useBcs.index wi [(l.index : Int)] ∧
      Pieces cfg l.useBcs.evals l.evaluations ws := by
  rw [script_of hlen] at hp
  obtain rfl := Option.some.inj hp
  rw [zip_take]
  have hbv : ∀ p ∈ l.useBcs.evals.zip l.evaluations,
      BcOk cfg words esize p.1 ∧ p.2.length = words := by
    intro q hq
    have := List.of_mem_zip hq
    exact ⟨ok.evals _ this.1, hw _ this.2⟩
  have hidx : [Op.num (l.index : Int), .equalverify] = wordChecks [l.index] := rfl
  rw [hidx]
  have main : ∀ s, run cfg (l.useBcs.index.lock ++ wordChecks [l.index] ++
      ((l.useBcs.evals.zip l.evaluations).flatMap fun p => p.1.lock ++ wordChecks p.2) ++
      [.num 1]) ⟨w, [], []⟩ = some s ↔
      ∃ wi rest0, w = wi ++ rest0 ∧ wi.length = isize ∧
        Opens cfg l.useBcs.index wi [(l.index : Int)] ∧
        ∃ ws rest, rest0 = ws.flatten ++ rest ∧
          List.Forall₂ (fun p w => w.length = esize ∧
            Opens cfg p.1 w (p.2.map fun x : Nat => (x : Int)))
            (l.useBcs.evals.zip l.evaluations) ws ∧
          some ⟨num 1 :: rest, [], []⟩ = some s := by
    intro s
    rw [List.append_assoc, run_lock_checks ok.index (v := [l.index]) rfl]
    constructor
    · rintro ⟨wi, rest0, h1, h2, h3, h4⟩
      obtain ⟨ws, rest, h5, h6, h7⟩ := (run_evals _ hbv rest0).1 h4
      rw [run_num _ rfl] at h7
      exact ⟨wi, rest0, h1, h2, h3, ws, rest, h5, h6, h7⟩
    · rintro ⟨wi, rest0, h1, h2, h3, ws, rest, h5, h6, h7⟩
      refine ⟨wi, rest0, h1, h2, h3, (run_evals _ hbv rest0).2 ⟨ws, rest, h5, h6, ?_⟩⟩
      rw [run_num _ rfl]; exact h7
  have forall_split : ∀ {bvs : List (Bc × List Nat)} {ws : List (List Elem)},
      List.Forall₂ (fun p w => w.length = esize ∧
        Opens cfg p.1 w (p.2.map fun x : Nat => (x : Int))) bvs ws ↔
      List.Forall₂ (fun p w => Opens cfg p.1 w (p.2.map fun x : Nat => (x : Int))) bvs ws ∧
        ∀ x ∈ ws, x.length = esize := by
    intro bvs ws
    constructor
    · intro h
      induction h with
      | nil => exact ⟨.nil, by simp⟩
      | cons h1 _ ih =>
        refine ⟨.cons h1.2 ih.1, ?_⟩
        intro x hx
        rcases List.mem_cons.1 hx with rfl | hx
        · exact h1.1
        · exact ih.2 x hx
    · rintro ⟨h, hx⟩
      induction h with
      | nil => exact .nil
      | cons h1 _ ih =>
        exact .cons ⟨hx _ (by simp), h1⟩ (ih fun x hx' => hx x (by simp [hx']))
  unfold accepts
  constructor
  · intro h
    split at h
    · rename_i e a' hr
      obtain ⟨wi, rest0, h1, h2, h3, ws, rest, h5, h6, h7⟩ := (main _).1 hr
      injection h7 with h7
      injection h7 with h7 _ _
      injection h7 with _ h7
      subst h7
      obtain ⟨h8, h9⟩ := forall_split.1 h6
      exact ⟨wi, ws, by rw [h1, h5]; simp, h2, h9, h3, h8⟩
    · cases h
  · rintro ⟨wi, ws, h1, h2, h3, h4, h5⟩
    have := (main ⟨[num 1], [], []⟩).2 ⟨wi, ws.flatten, h1, h2, h4, ws, [], by simp,
      forall_split.2 ⟨h5, h3⟩, rfl⟩
    rw [this]
    show truthy (num 1) = true
    decide +kernel

/-- The honest witness. -/
theorem witness_of {l : CommittedLeaf} (h : l.useBcs.evals.length ≤ l.evaluations.length) :
    ∃ w, l.witness = some w ∧ w.reverse = (l.useBcs.index.wit [l.index % 2 ^ 32]).reverse ++
      ((l.useBcs.evals.zip l.evaluations).map fun p => (p.1.wit p.2).reverse).flatten := by
  unfold CommittedLeaf.witness
  rw [mapM_get_take _ _ h]
  refine ⟨_, rfl, ?_⟩
  rw [zip_take, List.reverse_append]
  congr 1
  generalize l.useBcs.evals.zip l.evaluations = bvs
  induction bvs with
  | nil => rfl
  | cons p bvs ih => simp [List.flatMap_append, ih]

theorem witness_short {l : CommittedLeaf} (h : l.evaluations.length < l.useBcs.evals.length) :
    l.witness = none := by
  unfold CommittedLeaf.witness
  rw [mapM_get_short _ _ h]; rfl

theorem honest_pieces {cfg : Cfg} {words esize : Nat} :
    ∀ (bvs : List (Bc × List Nat)), (∀ p ∈ bvs, BcOk cfg words esize p.1 ∧ p.2.length = words ∧
      ∀ v ∈ p.2, v < 2 ^ 31) →
    List.Forall₂ (fun p w => Opens cfg p.1 w (p.2.map fun x : Nat => (x : Int))) bvs
      (bvs.map fun p => (p.1.wit p.2).reverse) ∧
    ∀ x ∈ bvs.map fun p => (p.1.wit p.2).reverse, x.length = esize := by
  intro bvs
  induction bvs with
  | nil => intro _; exact ⟨.nil, by simp⟩
  | cons p bvs ih =>
    intro h
    obtain ⟨h1, h2, h3⟩ := h p (by simp)
    obtain ⟨e1, e2⟩ := h1.honest p.2 h2 h3
    obtain ⟨i1, i2⟩ := ih fun q hq => h q (by simp [hq])
    refine ⟨.cons e2 i1, ?_⟩
    intro x hx
    rcases List.mem_cons.1 hx with rfl | hx
    · simpa using e1
    · exact i2 x hx

theorem opens_unique {cfg : Cfg} {bc : Bc} {w : List Elem} {vs vs' : List Int}
    (h : Opens cfg bc w vs) (h' : Opens cfg bc w vs') : vs = vs' := by
  unfold Opens at h h'
  rw [h] at h'
  simp only [Option.some.injEq, St.mk.injEq, and_true] at h'
  have hinj : Function.Injective (List.map num) := by
    intro a b hab
    exact (List.map_inj_right fun x y hxy => num_injective hxy).1 hab
  exact List.reverse_injective (hinj h')

/-- Two witness decompositions into pieces of the same sizes agree. -/
theorem flatten_inj {α : Type} {n : Nat} :
    ∀ (xs ys : List (List α)), (∀ x ∈ xs, x.length = n) → (∀ y ∈ ys, y.length = n) →
    xs.length = ys.length → xs.flatten = ys.flatten → xs = ys := by
  intro xs
  induction xs with
  | nil => intro ys _ _ h _; exact (List.length_eq_zero_iff.1 h.symm).symm
  | cons x xs ih =>
    intro ys hx hy h e
    cases ys with
    | nil => simp at h
    | cons y ys =>
      simp only [List.flatten_cons] at e
      obtain ⟨e1, e2⟩ := List.append_inj e (by rw [hx x (by simp), hy y (by simp)])
      rw [e1, ih ys (fun z hz => hx z (by simp [hz])) (fun z hz => hy z (by simp [hz]))
        (by simpa using h) e2]

/-! ### Commitments -/

variable {F H : Type} [LinearOrder H]

theorem leafRow_length_eq {mats : List (Mat F)} {L i : Nat} (hi : i < 2 ^ L) :
    (leafRow mats L i).length = (leafRow mats L 0).length := by
  have := partRow_length mats L (L + 1) le_rfl i 0 hi (by positivity)
  simpa [partRow, leafRow] using this

theorem leafRow_ne_nil {mats : List (Mat F)} {L i : Nat} (hh : Heights mats L) (hi : i < 2 ^ L) :
    leafRow mats L i ≠ [] := by
  obtain ⟨m, hm, e⟩ := hh.top
  have hw : 0 < m.width := by
    rcases Nat.eq_zero_or_pos m.width with h | h
    · unfold Mat.height at e; rw [h, Nat.div_zero] at e
      have : 0 < 2 ^ L := by positivity
      omega
    · exact h
  intro hc
  unfold leafRow at hc
  rw [List.flatMap_eq_nil_iff] at hc
  have h1 := hc L (by simp)
  rw [List.flatMap_eq_nil_iff] at h1
  have h2 := h1 m (by simp [hm, e])
  have h3 := rowOf_length (m := m) (r := i / 2 ^ (L - L)) (by simpa [e] using hi)
  rw [h2] at h3
  simp at h3; omega

/-- The operators a commitment is given. -/
def assigned (fr : FieldRep F) (mgr : Manager) (n width : Nat) : UseBcs :=
  { index := mgr n 1, evals := (List.range width).map fun i => mgr (n + 1 + i) fr.u32Size }

theorem commit_spec (th : TapHash (List Op) H) {fr : FieldRep F} (fok : FieldOk fr) (mgr : Manager)
    (n : Nat) {mats : List (Mat F)} {L : Nat} (hh : Heights mats L) (hL : L < 32) :
    ∃ d scripts, commitPolys th fr mgr n mats = some (d, n + 1 + (leafRow mats L 0).length) ∧
      d.leaves = mats ∧ d.useBcs = assigned fr mgr n (leafRow mats L 0).length ∧
      scripts.length = 2 ^ L ∧ Obtained th scripts d.tree ∧
      ∀ i (hi : i < scripts.length), CommittedLeaf.script
        ⟨d.useBcs, i, (leafRow mats L i).map fr.words⟩ = some scripts[i] := by
  classical
  set u := assigned fr mgr n (leafRow mats L 0).length with hu
  have hul : u.evals.length = (leafRow mats L 0).length := by simp [hu, assigned]
  let sc : Nat → List Op := fun i =>
    (CommittedLeaf.script ⟨u, i, (leafRow mats L i).map fr.words⟩).getD []
  have hsc : ∀ i, i < 2 ^ L → CommittedLeaf.script ⟨u, i, (leafRow mats L i).map fr.words⟩ =
      some (sc i) := by
    intro i hi
    simp only [sc]
    rw [script_of (by simp [hul, leafRow_length_eq hi])]; rfl
  obtain ⟨t, ht, -, -⟩ := build_spec th (scripts := (List.range (2 ^ L)).map sc) (k := L)
    (by simp) hL
  have hob : Obtained th ((List.range (2 ^ L)).map sc) t := .build L (by simp) ht
  refine ⟨⟨mats, t, u⟩, (List.range (2 ^ L)).map sc, ?_, rfl, rfl, by simp, hob, ?_⟩
  · have hpos : 0 < 2 ^ L := by positivity
    unfold commitPolys
    rw [if_pos fok.size, paddingMatrix_eq hh]
    simp only [Option.bind_eq_bind, Option.bind_some, rows_get _ _ hpos]
    have hfil : ((List.range (rows (2 ^ L) (leafRow mats L)).length).filter fun i =>
        !((rows (2 ^ L) (leafRow mats L)).getD i []).isEmpty) = List.range (2 ^ L) := by
      rw [rows_length, List.filter_eq_self]
      intro i hi
      have hi : i < 2 ^ L := by simpa using hi
      rw [List.getD_eq_getElem?_getD, rows_get _ _ hi]
      have := leafRow_ne_nil hh hi
      cases hr : leafRow mats L i with
      | nil => exact absurd hr this
      | cons x xs => rfl
    rw [hfil]
    have hm : ((List.range (2 ^ L)).mapM fun i => CommittedLeaf.script
        ⟨u, i, ((rows (2 ^ L) (leafRow mats L)).getD i []).map fr.words⟩) =
        some ((List.range (2 ^ L)).map sc) := by
      apply mapM_ok
      intro i hi
      have hi : i < 2 ^ L := by simpa using hi
      rw [List.getD_eq_getElem?_getD, rows_get _ _ hi]
      exact hsc i hi
    have hu' : ({ index := mgr n 1,
                  evals := (List.range (leafRow mats L 0).length).map fun i =>
                    mgr (n + 1 + i) fr.u32Size } : UseBcs) = u := rfl
    rw [hu', hm]
    simp only [Option.bind_some, ht]
  · intro i hi
    have hi' : i < 2 ^ L := by simpa using hi
    rw [List.getElem_map, List.getElem_range]
    exact hsc i hi'

theorem words_lengths {fr : FieldRep F} (fok : FieldOk fr) (l : List F) :
    ∀ v ∈ l.map fr.words, v.length = fr.u32Size := by
  intro v hv
  obtain ⟨x, -, rfl⟩ := List.mem_map.1 hv
  exact fok.length x

/-- Honest leaf script and witness. -/
theorem honest_accepts {cfg : Cfg} {fr : FieldRep F} (fok : FieldOk fr) {u : UseBcs}
    {isize esize : Nat} (ok : BcsOk cfg fr.u32Size isize esize u) {i : Nat} (hi : i < 2 ^ 31)
    {row vals : List F} (hlen : u.evals.length = row.length) (hp : row <+: vals) {p : List Op}
    (hs : CommittedLeaf.script ⟨u, i, row.map fr.words⟩ = some p) :
    ∃ w, CommittedLeaf.witness ⟨u, i, vals.map fr.words⟩ = some w ∧
      accepts cfg p w.reverse = true := by
  obtain ⟨extra, rfl⟩ := hp
  obtain ⟨w, hw, hr⟩ := witness_of (l := ⟨u, i, (row ++ extra).map fr.words⟩)
    (by simp [hlen])
  refine ⟨w, hw, ?_⟩
  rw [accepts_script (l := ⟨u, i, row.map fr.words⟩) ok (by simp [hlen])
    (words_lengths fok row) hs, hr]
  have hz : u.evals.zip ((row ++ extra).map fr.words) = u.evals.zip (row.map fr.words) := by
    rw [← zip_take u.evals ((row ++ extra).map fr.words)]
    congr 1
    rw [hlen]; simp
  have hmod : i % 2 ^ 32 = i := Nat.mod_eq_of_lt (by omega)
  obtain ⟨e1, e2⟩ := ok.index.honest [i] rfl (by simpa using hi)
  obtain ⟨q1, q2⟩ := honest_pieces (cfg := cfg) (words := fr.u32Size) (esize := esize)
    (u.evals.zip (row.map fr.words)) (by
      intro q hq
      obtain ⟨h1, h2⟩ := List.of_mem_zip hq
      obtain ⟨x, -, hx⟩ := List.mem_map.1 h2
      exact ⟨ok.evals _ h1, by rw [← hx]; exact fok.length x, by rw [← hx]; exact fok.bound x⟩)
  simp only at hz ⊢
  rw [hz, hmod]
  exact ⟨_, _, rfl, by simpa using e1, q2, by simpa using e2, q1⟩

theorem getTapleaf_of_obtained {th : TapHash (List Op) H} {scripts : List (List Op)}
    {t : Tree (List Op) H} (h : Obtained th scripts t) (h2 : 2 ≤ scripts.length) {i : Nat}
    (hi : i < scripts.length) :
    ∃ leaf, t.getTapleaf i = some (some leaf) ∧ leaf.script? = some scripts[i] ∧
      verifyInclusion th t.root.hash leaf = some true := by
  have ha := h.addresses
  obtain ⟨j, e1, e2⟩ := ha.at_index i hi
  cases hl : t.root.leaves[j]? with
  | none => rw [hl] at e2; simp at e2
  | some leaf =>
    rw [hl] at e2
    have hm := List.mem_of_getElem? hl
    refine ⟨leaf, by simp [Tree.getTapleaf, Tree.indexMap, e1, hl], ?_, ?_⟩
    · have : leaf.kind = .script tapScript scripts[i] := by simpa using e2
      unfold Leaf.script?; rw [this]
    · unfold verifyInclusion
      rw [pathRoot_eq th _ (ha.built.depth_one (by rw [ha.leaves]; exact h2) leaf hm),
        ha.built.root_of_leaf leaf hm]
      simp

end TapStark.Tcs
