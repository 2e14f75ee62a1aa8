import Verif.Props.CasesWords
import Verif.Props.TapTree
import Verif.Props.TcsKeys
import Verif.Props.TcsBatch
import Verif.Props.OpId
import Verif.Props.VarOps
import Verif.Props.Symbolic

/-!
Concrete cases of the theorems about taproot trees, the commitment scheme, node numbers and symbolic expressions: each
theorem is applied to data that meet its hypotheses.
-/

namespace TapStark.Tap

/-- The tree of the scripts 1, 2, 3, 4, in which the leaves of both pairs are swapped. -/
theorem caseTree : ∃ t, Obtained toyHash [1, 2, 3, 4] t ∧ t.leafIndices = [1, 0, 3, 2] ∧
    verifyInclusion toyHash t.root.hash ⟨.script 0xc0 3, [96, 607]⟩ = some true :=
  ⟨_, .build 2 rfl rfl, by decide +kernel, by decide +kernel⟩

example := C19_leaf_index_map toyHash [1, 2, 3, 4] 2 rfl (by decide)

example : ∃ t : Tree Nat Nat, t.leafIndices = [1, 0, 3, 2] ∧
    (∃ leaf, t.getTapleaf 2 = some (some leaf) ∧ leaf.kind = .script 0xc0 3) ∧ t.getTapleaf 4 = none ∧
    (∃ leaf, t.getLeafProof 2 = some (leaf, leaf.branch) ∧ leaf.kind = .script 0xc0 3 ∧
      verifyInclusion toyHash t.root.hash leaf = some true) ∧
    ∃ leaf, t.getTapleaf 3 = some (some leaf) ∧ leaf.kind = .script 0xc0 4 ∧
      t.verifyInclusionByIndex toyHash 2 = verifyInclusion toyHash t.root.hash leaf := by
  obtain ⟨t, ht, hi, -⟩ := caseTree
  obtain ⟨-, -, h1, h2⟩ := C19_any_tree ht
  obtain ⟨j, leaf, hj, e, g1, g2, g3⟩ := C20_by_index_checks_other_leaf ht 2 (by decide)
  rw [hi] at e
  obtain rfl : 3 = j := Option.some.inj e
  exact ⟨t, hi, h1 2 (by decide), h2 4 (by decide), (C20_inclusion_complete ht (by decide) 2 (by decide)).1, leaf, g1, g2, g3⟩

/-- Binding: the accepted leaf holds a script of the tree. -/
example : ∃ t, (Obtained toyHash [1, 2, 3, 4] t ∧
    ((0xc0 = 0xc0 ∧ 3 ∈ [1, 2, 3, 4]) ∨ ∃ q ∈ leafQueries toyHash 0xc0 3 [96, 607],
      ∃ q' ∈ treeQueries toyHash t, q ≠ q' ∧ q.eval toyHash = q'.eval toyHash)) := by
  obtain ⟨t, ht, -, h⟩ := caseTree
  exact ⟨t, ht, C21_inclusion_binding ht _ _ _ h⟩

/-- Two trees combined, the second of which comes first in the order of the leaves. -/
example : ∃ c : Tree Nat Nat, c.leafIndices = [2, 1, 0] ∧
    (∃ leaf, c.getTapleaf 1 = some (some leaf) ∧ leaf.kind = .script 0xc0 2 ∧
      verifyInclusion toyHash c.root.hash leaf = some true) ∧
    ∃ leaf, c.getTapleaf 2 = some (some leaf) ∧ leaf.kind = .script 0xc0 3 ∧
      verifyInclusion toyHash c.root.hash leaf = some true := by
  obtain ⟨a, b, c, ha, hb, hc, hi⟩ : ∃ a b c, Obtained toyHash [1, 2] a ∧ Obtained toyHash [3] b ∧
      a.combine toyHash b = some c ∧ c.leafIndices = [2, 1, 0] :=
    ⟨_, _, _, .build 1 rfl rfl, .build 0 rfl rfl, rfl, by decide +kernel⟩
  obtain ⟨h1, h2⟩ := C22_combine ha hb hc
  exact ⟨c, hi, h1 1 (by decide), h2 0 (by decide)⟩

example : ∃ a b c, Obtained toyHash [1, 2] a ∧ Obtained toyHash [3, 4] b ∧ a.combine toyHash b = some c := by
  obtain ⟨a, b, ha, hb, h1, h2⟩ : ∃ a b, Obtained toyHash [1, 2] a ∧ Obtained toyHash [3, 4] b ∧
      (∀ l ∈ a.root.leaves, l.branch.length < 128) ∧ ∀ l ∈ b.root.leaves, l.branch.length < 128 :=
    ⟨_, _, .build 1 rfl rfl, .build 1 rfl rfl, by decide +kernel, by decide +kernel⟩
  obtain ⟨c, hc⟩ := C22_combine_succeeds toyHash a b h1 h2
  exact ⟨a, b, c, ha, hb, hc⟩

example : ∃ a c, Obtained toyHash [1, 2] a ∧ a.combineOtherScript toyHash [3] = some c ∧ Obtained toyHash [1, 2, 3] c :=
  have ⟨a, c, ha, hc⟩ : ∃ a c, Obtained toyHash [1, 2] a ∧ a.combineOtherScript toyHash [3] = some c :=
    ⟨_, _, .build 1 rfl rfl, rfl⟩
  ⟨a, c, ha, hc, C22_combine_other_script (B := [3]) (k := 0) ha rfl hc⟩

end TapStark.Tap

namespace TapStark.Tcs

open TapStark.Tap

variable {H : Type} [LinearOrder H]

example := C23_padding fieldMats 2 fieldMats_heights

example : (leafRow fieldMats 2 3).length = 4 := C23_width fieldMats 2 fieldMats_heights 3 (by decide)

/-- Commitments for the cases: one Winternitz commitment for every purpose. -/
theorem case_ok : ∃ bc : Bc, ∀ n w, BcsOk caseCfg babyBearRep.u32Size 20 20 (assigned babyBearRep (fun _ _ => bc) n w) := by
  obtain ⟨b, c, -, -, h⟩ := winternitz_ok caseCfg caseCfg_length ['b', '1', '3', '8'] (by decide) 0
  refine ⟨_, fun n w => ⟨h, ?_⟩⟩
  intro bc hbc
  obtain ⟨-, -, rfl⟩ := List.mem_map.1 hbc
  exact h

/-- The opening of index 2 is bound to the row of index 2, with the operators of the commitment or others that show the
same. -/
example (th : TapHash (List Op) H) : ∃ (d : Committed (Fin 0x78000001) H) (proof : Proof H),
    proof.queryIndex = 2 ∧ verify caseCfg th babyBearRep d.tree.root.hash proof [12, 22, 23, 31] = some true ∧
    ((proof.queryIndex < 2 ^ 2 ∧ leafRow fieldMats 2 proof.queryIndex <+: [12, 22, 23, 31]) ∨
      ∃ ver s, proof.leaf.kind = .script ver s ∧ ∃ q ∈ leafQueries th ver s proof.leaf.branch,
        ∃ q' ∈ treeQueries th d.tree, q ≠ q' ∧ q.eval th = q'.eval th) := by
  obtain ⟨bc, ok⟩ := case_ok
  obtain ⟨d, n', hc, ho⟩ := C24_open_verify (cfg := caseCfg) th babyBearRep_ok (fun _ _ => bc) 0 fieldMats 2
    fieldMats_heights (by decide) (by decide) 20 20 (ok 0)
  obtain ⟨proof, h1, h2, h3⟩ := ho 2 (by decide)
  have hr : leafRow fieldMats 2 2 = [12, 22, 23, 31] := (C24_instance caseCfg caseCfg_length th 1).2.1
  have hu : proof.useBcs = d.useBcs := by
    unfold openAt Committed.queryProof at h1
    simp only [Option.bind_eq_bind, Option.bind_eq_some_iff, Option.some.injEq, Prod.mk.injEq] at h1
    obtain ⟨_, -, p, ⟨_, _, _, _, hp⟩, _, -, rfl, -⟩ := h1
    rw [← hp]
  rw [hr] at h3
  exact ⟨d, proof, h2, h3, C25_bound_to_proof_index_partial th babyBearRep_ok _ 0 n' fieldMats 2 fieldMats_heights
    (by decide) 20 20 (ok 0) d hc proof _ hu (by omega) h3⟩

example (th : TapHash (List Op) H) : ∃ (d : Committed (Fin 0x78000001) H) (proof : Proof H) (values : List (Fin 0x78000001)),
    verifyBatch caseCfg th babyBearRep 0 [values] proof [d.tree.root.hash] = some true ∧ values ≠ leafRow fieldMats 2 1 := by
  obtain ⟨bc, ok⟩ := case_ok
  obtain ⟨d, _, _, proof, values, h⟩ := C25_not_bound_to_index (cfg := caseCfg) th babyBearRep_ok (fun _ _ => bc) 0 fieldMats 2
    fieldMats_heights (by decide) (by decide) 20 20 (ok 0) 1 2 (by decide) (by decide +kernel)
  exact ⟨d, proof, values, h⟩

example (th : TapHash (List Op) H) : ∃ (d : Committed (Fin 0x78000001) H) (proof : Proof H),
    verify caseCfg th babyBearRep d.tree.root.hash proof (leafRow fieldMats 2 2 ++ [99]) = some true := by
  obtain ⟨bc, ok⟩ := case_ok
  obtain ⟨d, _, proof, _, _, h⟩ := C26_surplus_accepted (cfg := caseCfg) th babyBearRep_ok (fun _ _ => bc) 0 fieldMats 2
    fieldMats_heights (by decide) (by decide) 20 20 (ok 0) 2 (by decide) [99]
  exact ⟨d, proof, h⟩

example (th : TapHash (List Op) H) (root : H) (bc : Bc) (p : Proof H)
    (hp : p.useBcs = ⟨bc, [bc, bc]⟩) : verify caseCfg th babyBearRep root p [1] = none :=
  C26_missing_panics caseCfg th babyBearRep root p [1] (by rw [hp]; show 1 < 2; decide)

example : ∃ u : UseBcs, u.evals.length = 2 ∧ ∃ p, CommittedLeaf.script ⟨u, 5, [[1], [2]]⟩ = some p ∧ ∀ w : List Elem,
    accepts caseCfg p w = true ↔ ∃ (wi : List Elem) (ws : List (List Elem)), w = wi ++ ws.flatten ∧
      Opens caseCfg u.index wi [(5 : Int)] ∧ ws.length = 2 ∧
      ∀ (i : Nat) (h1 : i < u.evals.length) (h2 : i < [[1], [2]].length) (h3 : i < ws.length),
        Opens caseCfg u.evals[i] ws[i] ([[1], [2]][i].map fun v : Nat => (v : Int)) := by
  obtain ⟨b, c, -, -, h⟩ := winternitz_ok caseCfg caseCfg_length ['b', '1', '3', '8'] (by decide) 0
  exact ⟨⟨winternitzBc caseCfg b c, List.replicate 2 (winternitzBc caseCfg b c)⟩, rfl, C27_exact (words := 1) (isize := 20)
    (esize := 20) _ 5 [[1], [2]]
    ⟨h, fun bc hbc => by rw [List.eq_of_mem_replicate hbc]; exact h⟩ rfl (by decide)⟩

example : ∃ u : UseBcs, u.evals.length = 2 ∧ ∃ p w, CommittedLeaf.script ⟨u, 5, [1, 2].map babyBearRep.words⟩ = some p ∧
    CommittedLeaf.witness ⟨u, 5, [1, 2].map babyBearRep.words⟩ = some w ∧ accepts caseCfg p w.reverse = true := by
  obtain ⟨b, c, -, -, h⟩ := winternitz_ok caseCfg caseCfg_length ['b', '1', '3', '8'] (by decide) 0
  exact ⟨⟨winternitzBc caseCfg b c, List.replicate 2 (winternitzBc caseCfg b c)⟩, rfl, C27_honest_witness babyBearRep_ok _ (isize := 20) (esize := 20)
    ⟨h, fun bc hbc => by rw [List.eq_of_mem_replicate hbc]; exact h⟩ 5 (by decide)
    [1, 2] rfl⟩

example (th : TapHash (List Op) H) (mgr : Manager) :=
  C69_operator_numbers th babyBearRep_ok mgr fieldMats 2 fieldMats_heights (by decide) 3 7

/-- A batch is refused when the second of three queries shows another row than the one opened. -/
example (th : TapHash (List Op) H) (roots : List H) (ps : List (Proof H)) (r : H) (p : Proof H)
    (values : List (List (Fin 0x78000001)))
    (h0 : verifyWithQueryTimes caseCfg th babyBearRep roots ps values 1 = some true) (hr : roots[1]? = some r)
    (hp : ps[1]? = some p) (hv : values[1]? = some [11, 20, 21, 31])
    (hf : verify caseCfg th babyBearRep r p [11, 20, 21, 31] = some false) :
    verifyWithQueryTimes caseCfg th babyBearRep roots ps values 3 = some false :=
  C103_refuses caseCfg th babyBearRep roots ps values (by decide) h0 hr hp hv hf

/-- Any keys of the operator's kind: the opening of index 3. -/
example (th : TapHash (List Op) H) : ∃ (d : Committed (Fin 0x78000001) H) (proof : Proof H), proof.queryIndex = 3 ∧
    ((∃ i, i < 2 ^ 2 ∧ leafRow fieldMats 2 i <+: leafRow fieldMats 2 3 ∧
        (proof.queryIndex % 2 ^ 32 < 2 ^ 31 → proof.queryIndex % 2 ^ 32 = i)) ∨
      ∃ ver s, proof.leaf.kind = .script ver s ∧ ∃ q ∈ leafQueries th ver s proof.leaf.branch,
        ∃ q' ∈ treeQueries th d.tree, q ≠ q' ∧ q.eval th = q'.eval th) := by
  obtain ⟨mgr, hm, d, n', hc, h⟩ := C112_instance caseCfg caseCfg_length th babyBearRep_ok ['b', '1'] (by decide) fieldMats 2
    fieldMats_heights (by decide) (by decide) 0
  obtain ⟨proof, h1, h2, h3, h4⟩ := h 3 (by decide)
  exact ⟨d, proof, h1, C112_any_keys caseCfg_length th babyBearRep_ok mgr 0 n' fieldMats 2 fieldMats_heights (by decide) hm d hc
    proof _ h2 h3 h4⟩

example (th : TapHash (List Op) H) := C113_violated_two_rows caseCfg caseCfg_length th

end TapStark.Tcs

namespace TapStark.OpId

example : ∃ s, Reachable true s ∧ s.ids[2]? = some 3 ∧ s.log.length < 2 ^ 32 := by
  obtain ⟨s, hr, hl, -⟩ := C102_instance
  exact ⟨s, hr, C102_ids hr (i := 2) (by rw [hl]; decide), (C102_exhausted (s' := s) (t := 0) hr).1⟩

/-- A comparison of 5 with 6 passes. -/
example : assertDsl caseCfg (repoLib 2013265921) refTracker (Dsl.constant [5] 3).1 [6] 3 = some () :=
  C102_violated_assert (repoLib_ok caseCfg) (refTracker_ok caseCfg) (by decide) 3

end TapStark.OpId

namespace TapStark

example : ¬ (VStep.build bbField C106.steps [] 0 = none) :=
  (C106_panics (B := bbField) C106.steps (by simp [C106.steps, VStep.AllInRange, VStep.InRange]) 0).2 (by
    simp [C106.steps, VStep.Fits]
    rfl)

example (sv : SVar) (t : Tracker) := C106_violated_annotation (L := repoLib 2013265921) (T := refTracker) 0 1 7 sv true t

end TapStark

namespace TapStark.Stark

open Polynomial

/-- The local cell of column 2 becomes the input for row 2 and column 0. -/
example : ∃ v, toVariable (.main 0, 2) = some v ∧ v.row = 2 ∧ v.column = 0 ∧ v ≠ mainVar 0 2 :=
  let ⟨⟨v, h, h1, h2⟩, h3, _⟩ := C100_violated_transposed 0 2
  ⟨v, h, h1, h2, h3 v h⟩

example : toVariable (.main 0, 2) ≠ toVariable (.main 1, 2) := fun h => absurd (C100_injective_partial h).1 (by decide)

example : ∃ x : SymExpr ℚ, (AExpr.mul (.loc 0) (.sub (.nxt 1) (.pub 0)) : AExpr ℚ).symbolic 2 1 = some x ∧ x.Made ∧
    x.degreeMultiple = x.degree 1 0 :=
  have h : (AExpr.mul (.loc 0) (.sub (.nxt 1) (.pub 0)) : AExpr ℚ).symbolic 2 1 = some _ := rfl
  ⟨_, h, C99_air h, C99_degree (C99_air h)⟩

end TapStark.Stark
