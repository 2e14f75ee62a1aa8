import Verif.Proofs.TapTree

/-!
Properties C19 to C22: the taproot tree.  `TapHash` is any pair of hash functions, hashes are any
linearly ordered type; the order of children at each node is decided by the hashes and therefore
arbitrary.
-/

namespace TapStark.Tap

variable {S H : Type} [LinearOrder H]

/-- **C19** For every list of `2^k` scripts (`k < 32`) the tree is built, the index map is a
permutation of the indices, and index `i` returns a leaf that holds the `i`-th added script. -/
theorem C19_leaf_index_map (th : TapHash S H) (scripts : List S) (k : Nat)
    (hlen : scripts.length = 2 ^ k) (hk : k < 32) :
    ∃ t, Tree.newWithScripts th scripts = some t ∧ t.leafCount = scripts.length ∧
      t.leafIndices.Perm (List.range scripts.length) ∧
      ∀ (i : Nat) (hi : i < scripts.length), ∃ leaf, t.getTapleaf i = some (some leaf) ∧
        leaf.kind = .script 0xc0 scripts[i] ∧ leaf.branch.length = k := by
  obtain ⟨t, h1, h2, h3⟩ := build_spec th hlen hk
  refine ⟨t, h1, h2.count, h2.perm, fun i hi => ?_⟩
  obtain ⟨j, e1, e2⟩ := h2.at_index i hi
  cases hl : t.root.leaves[j]? with
  | none => rw [hl] at e2; simp at e2
  | some leaf =>
    rw [hl] at e2
    refine ⟨leaf, by simp [Tree.getTapleaf, Tree.indexMap, e1, hl], by simpa [tapScript] using e2, ?_⟩
    exact h3 leaf (List.mem_of_getElem? hl)

/-- **C19** The same for every tree obtained by building and combining: the index map is a
permutation and index `i` addresses the `i`-th script, while larger indices are out of bounds. -/
theorem C19_any_tree {th : TapHash S H} {scripts : List S} {t : Tree S H}
    (h : Obtained th scripts t) :
    t.leafCount = scripts.length ∧ t.leafIndices.Perm (List.range scripts.length) ∧
      (∀ (i : Nat) (hi : i < scripts.length), ∃ leaf, t.getTapleaf i = some (some leaf) ∧
        leaf.kind = .script 0xc0 scripts[i]) ∧
      ∀ i, scripts.length ≤ i → t.getTapleaf i = none := by
  have h2 := h.addresses
  refine ⟨h2.count, h2.perm, fun i hi => ?_, fun i hi => ?_⟩
  · obtain ⟨j, e1, e2⟩ := h2.at_index i hi
    cases hl : t.root.leaves[j]? with
    | none => rw [hl] at e2; simp at e2
    | some leaf =>
      rw [hl] at e2
      exact ⟨leaf, by simp [Tree.getTapleaf, Tree.indexMap, e1, hl], by simpa [tapScript] using e2⟩
  · have : t.leafIndices.length = scripts.length := by simpa using h2.perm.length_eq
    have e : t.leafIndices[i]? = none := List.getElem?_eq_none (by omega)
    simp [Tree.getTapleaf, Tree.indexMap, e]

/-- **C20** In every obtained tree with at least two leaves, every index returns a leaf and path
whose inclusion proof verifies against the root; so does the by-index check. -/
theorem C20_inclusion_complete {th : TapHash S H} {scripts : List S} {t : Tree S H}
    (h : Obtained th scripts t) (h2 : 2 ≤ scripts.length) (i : Nat) (hi : i < scripts.length) :
    (∃ leaf, t.getLeafProof i = some (leaf, leaf.branch) ∧
      leaf.kind = .script 0xc0 scripts[i] ∧
      verifyInclusion th t.root.hash leaf = some true) ∧
    t.verifyInclusionByIndex th i = some true := by
  have ha := h.addresses
  have key : ∀ i, i < scripts.length → ∃ j leaf, t.leafIndices[i]? = some j ∧
      t.root.leaves[j]? = some leaf ∧ leaf.kind = .script tapScript (scripts.getD i scripts[0]) ∧
      j < scripts.length ∧
      pathRoot th (leaf.nodeHash th) leaf.branch = some t.root.hash := by
    intro i hi
    obtain ⟨j, e1, e2⟩ := ha.at_index i hi
    cases hl : t.root.leaves[j]? with
    | none => rw [hl] at e2; simp at e2
    | some leaf =>
      rw [hl] at e2
      have hm := List.mem_of_getElem? hl
      refine ⟨j, leaf, e1, hl, by simpa [hi] using e2, ?_, ?_⟩
      · have := (List.getElem?_eq_some_iff.1 hl).1; rw [ha.leaves] at this; exact this
      · rw [pathRoot_eq th _ (ha.built.depth_one (by rw [ha.leaves]; exact h2) leaf hm),
          ha.built.root_of_leaf leaf hm]
  obtain ⟨j, leaf, e1, e2, e3, e4, e5⟩ := key i hi
  constructor
  · refine ⟨leaf, ?_, by simpa [hi, tapScript] using e3, by simp [verifyInclusion, e5]⟩
    simp [Tree.getLeafProof, Tree.getTapleaf, Tree.getLeafMerklePath, Tree.indexMap, e1, e2]
  · obtain ⟨j', leaf', f1, f2, f3, f4, f5⟩ := key j e4
    simp [Tree.verifyInclusionByIndex, Tree.getTapleaf, Tree.getLeafMerklePath, Tree.indexMap,
      e1, f1, f2, f5]

/-- **C20, single leaf: fails.** A tree of one script is built, but both inclusion checks panic. -/
theorem C20_single_leaf_panics (th : TapHash S H) (s : S) :
    ∃ t leaf, Tree.newWithScripts th [s] = some t ∧ t.getTapleaf 0 = some (some leaf) ∧
      leaf.kind = .script 0xc0 s ∧ verifyInclusion th t.root.hash leaf = none ∧
      t.verifyInclusionByIndex th 0 = none := by
  refine ⟨⟨newLeaf th s, 1, [0]⟩, ⟨.script tapScript s, []⟩, ?_, rfl, rfl, rfl, rfl⟩
  simp [Tree.newWithScripts, Builder.addLeaf, Builder.new, Builder.buildTree, isPowerOfTwo,
    buildLoop, reverseIdxDict, reverseLoop]

/-- **C20, by-index check: looks at another leaf.** The by-index check of index `i` is the check of
the leaf at index `index_map(i)`: in every obtained tree it inspects the leaf of script
`scripts[index_map(i)]`, not of `scripts[i]`. -/
theorem C20_by_index_checks_other_leaf {th : TapHash S H} {scripts : List S} {t : Tree S H}
    (h : Obtained th scripts t) (i : Nat) (hi : i < scripts.length) :
    ∃ j leaf, ∃ hj : j < scripts.length, t.leafIndices[i]? = some j ∧
      t.getTapleaf j = some (some leaf) ∧ leaf.kind = .script 0xc0 scripts[j] ∧
      t.verifyInclusionByIndex th i = verifyInclusion th t.root.hash leaf := by
  have ha := h.addresses
  obtain ⟨j, e1, -⟩ := ha.at_index i hi
  have hj : j < scripts.length := by
    have := (ha.perm.mem_iff).1 (List.mem_of_getElem? e1)
    simpa using this
  obtain ⟨j', f1, f2⟩ := ha.at_index j hj
  cases hl : t.root.leaves[j']? with
  | none => rw [hl] at f2; simp at f2
  | some leaf =>
    rw [hl] at f2
    refine ⟨j, leaf, hj, e1, by simp [Tree.getTapleaf, Tree.indexMap, f1, hl], by simpa [tapScript] using f2,
      ?_⟩
    simp [Tree.verifyInclusionByIndex, Tree.getTapleaf, Tree.getLeafMerklePath, Tree.indexMap,
      e1, f1, hl, verifyInclusion]

/-- **C21** Binding.  If the inclusion proof of a script verifies against the root of an obtained
tree, then the script is one of the tree's scripts, or the hash evaluations made by the proof check
contain one that collides with a different evaluation made in the tree. -/
theorem C21_inclusion_binding {th : TapHash S H} {scripts : List S} {t : Tree S H}
    (h : Obtained th scripts t) (ver : Nat) (s : S) (path : List H)
    (hv : verifyInclusion th t.root.hash ⟨.script ver s, path⟩ = some true) :
    (ver = 0xc0 ∧ s ∈ scripts) ∨
      ∃ q ∈ leafQueries th ver s path, ∃ q' ∈ treeQueries th t,
        q ≠ q' ∧ q.eval th = q'.eval th := by
  have ha := h.addresses
  have hne : path ≠ [] := by
    rintro rfl; simp [verifyInclusion, pathRoot] at hv
  unfold verifyInclusion at hv
  rw [pathRoot_eq th _ hne] at hv
  have hr : climb th (th.leafHash ver s) path = t.root.hash := by
    simpa [Leaf.nodeHash] using hv
  rcases binding ha.built ver s path hr with ⟨l, hl, hk⟩ | hc
  · left
    obtain ⟨s', hs'⟩ := ha.built.script_leaves l hl
    rw [hk] at hs'
    injection hs' with h1 h2
    refine ⟨h1, ?_⟩
    obtain ⟨j, hj, hlj⟩ := List.getElem_of_mem hl
    rw [ha.leaves] at hj
    -- the index map reaches every leaf
    have hmem : j ∈ t.leafIndices := (ha.perm.mem_iff).2 (by simpa using hj)
    obtain ⟨i, hi, e⟩ := List.getElem_of_mem hmem
    have hi' : i < scripts.length := by
      have : t.leafIndices.length = scripts.length := by simpa using ha.perm.length_eq
      omega
    obtain ⟨j', e1, e2⟩ := ha.at_index i hi'
    rw [List.getElem?_eq_getElem hi, e] at e1
    cases e1
    rw [List.getElem?_eq_getElem (by rw [ha.leaves]; exact hj), hlj] at e2
    simp only [Option.map_some, hk, Option.some.injEq, LeafKind.script.injEq] at e2
    rw [e2.2]; exact List.getElem_mem hi'
  · exact Or.inr hc

/-- **C22** Combining.  Index `i < |A|` of the combination addresses script `i` of `A`, index
`|A| + j` script `j` of `B`, for either child order; both inclusion proofs verify against the new
root. -/
theorem C22_combine {th : TapHash S H} {A B : List S} {a b c : Tree S H}
    (ha : Obtained th A a) (hb : Obtained th B b) (h : a.combine th b = some c) :
    (∀ (i : Nat) (hi : i < A.length), ∃ leaf, c.getTapleaf i = some (some leaf) ∧
      leaf.kind = .script 0xc0 A[i] ∧ verifyInclusion th c.root.hash leaf = some true) ∧
    ∀ (j : Nat) (hj : j < B.length), ∃ leaf, c.getTapleaf (A.length + j) = some (some leaf) ∧
      leaf.kind = .script 0xc0 B[j] ∧ verifyInclusion th c.root.hash leaf = some true := by
  have hc := Obtained.combine ha hb h
  have pos : ∀ {X : List S} {x : Tree S H}, Obtained th X x → 0 < X.length := by
    intro X x hx
    rw [← hx.addresses.leaves]
    exact List.length_pos_of_ne_nil hx.addresses.built.nonempty
  have h2 : 2 ≤ (A ++ B).length := by
    have := pos ha; have := pos hb; simp; omega
  have lift : ∀ (i : Nat) (hi : i < (A ++ B).length), ∃ leaf, c.getTapleaf i = some (some leaf) ∧
      leaf.kind = .script 0xc0 (A ++ B)[i] ∧
      verifyInclusion th c.root.hash leaf = some true := by
    intro i hi
    obtain ⟨⟨leaf, e1, e2, e3⟩, -⟩ := C20_inclusion_complete hc h2 i hi
    refine ⟨leaf, ?_, e2, e3⟩
    unfold Tree.getLeafProof at e1
    cases hg : c.getTapleaf i with
    | none => rw [hg] at e1; simp at e1
    | some o =>
      cases o with
      | none => rw [hg] at e1; simp at e1
      | some l =>
        rw [hg] at e1
        simp only [Option.bind_eq_bind, Option.bind_some, Option.bind_eq_some_iff] at e1
        obtain ⟨x, -, p, -, e⟩ := e1
        cases e; rfl
  constructor
  · intro i hi
    obtain ⟨leaf, e1, e2, e3⟩ := lift i (by simp; omega)
    exact ⟨leaf, e1, by rw [e2, List.getElem_append_left hi], e3⟩
  · intro j hj
    obtain ⟨leaf, e1, e2, e3⟩ := lift (A.length + j) (by simp; omega)
    refine ⟨leaf, e1, ?_, e3⟩
    rw [e2, List.getElem_append_right (by omega)]; simp

/-- **C22** Combining does not fail as long as no path of either tree has reached the 128-entry
limit of the taproot library. -/
theorem C22_combine_succeeds (th : TapHash S H) (a b : Tree S H)
    (ha : ∀ l ∈ a.root.leaves, l.branch.length < 128)
    (hb : ∀ l ∈ b.root.leaves, l.branch.length < 128) : ∃ c, a.combine th b = some c := by
  obtain ⟨n, e⟩ := combine_ok th ha hb
  simp [Tree.combine, e]

/-- **C22** Combining with further scripts is combining with the tree built from them. -/
theorem C22_combine_other_script {th : TapHash S H} {A B : List S} {a c : Tree S H} {k : Nat}
    (ha : Obtained th A a) (hlen : B.length = 2 ^ k) (h : a.combineOtherScript th B = some c) :
    Obtained th (A ++ B) c := by
  unfold Tree.combineOtherScript at h
  simp only [Option.bind_eq_bind, Option.bind_eq_some_iff] at h
  obtain ⟨b, h1, h2⟩ := h
  exact .combine ha (.build k hlen h1) h2

/-! ### Non-trivial instances

A toy hash on numbers whose order reverses the scripts at both levels of a four-leaf tree. -/

/-- Leaf hashes decrease with the script, so every pair of leaves is swapped. -/
def toyHash : TapHash Nat Nat := ⟨fun _ s => 100 - s, fun a b => 1000 - (a + 3 * b)⟩

example : (Tree.newWithScripts toyHash [1, 2, 3, 4]).map (·.leafIndices) = some [1, 0, 3, 2] := by
  decide +kernel

example : (Tree.newWithScripts toyHash [4, 3, 2, 1]).map (·.leafIndices) = some [2, 3, 0, 1] := by
  decide +kernel

example : ∃ t, Obtained toyHash [1, 2, 3, 4] t ∧ 2 ≤ [1, 2, 3, 4].length ∧
    t.verifyInclusionByIndex toyHash 2 = some true :=
  ⟨_, .build 2 rfl rfl, by decide, by decide +kernel⟩

/-- A verifying inclusion proof, as assumed by C21. -/
example : ∃ t, Obtained toyHash [1, 2, 3, 4] t ∧
    verifyInclusion toyHash t.root.hash ⟨.script tapScript 3, [96, 607]⟩ = some true :=
  ⟨_, .build 2 rfl rfl, by decide +kernel⟩

/-- A combination, as assumed by C22, in which the second tree comes first. -/
example : ∃ a b c, Obtained toyHash [1, 2] a ∧ Obtained toyHash [3] b ∧
    a.combine toyHash b = some c ∧ c.leafIndices = [2, 1, 0] :=
  ⟨_, _, _, .build 1 rfl rfl, .build 0 rfl rfl, rfl, by decide +kernel⟩

/-- **C20, hidden nodes.** A hidden node stands for the subtree whose hash it is: where a leaf passes with a path through an
inner node, the hidden leaf of that node passes with the rest of the path, and the other way round. -/
theorem C20_hidden (th : TapHash S H) (root h : H) (kind : LeafKind S H) (low high : List H) (hne : high ≠ [])
    (hlow : pathRoot th (Leaf.nodeHash th ⟨kind, []⟩) low = some h) :
    verifyInclusion th root ⟨.hidden h, high⟩ = verifyInclusion th root ⟨kind, low ++ high⟩ := by
  cases low with
  | nil => cases hlow
  | cons p ps =>
    cases high with
    | nil => exact absurd rfl hne
    | cons q qs =>
      simp only [pathRoot, Option.some.injEq] at hlow
      have e : Leaf.nodeHash th ⟨kind, p :: ps ++ q :: qs⟩ = Leaf.nodeHash th ⟨kind, []⟩ := rfl
      simp only [verifyInclusion, e]
      rw [← hlow]
      simp only [pathRoot, List.cons_append, List.foldl_append, List.foldl_cons]
      rfl

/-- The hidden node above the scripts 3 and 4, in the tree of 1, 2, 3, 4. -/
example : ∃ t, Obtained toyHash [1, 2, 3, 4] t ∧
    verifyInclusion toyHash t.root.hash ⟨.hidden 613, [607]⟩ = some true := by
  obtain ⟨t, ht, h⟩ : ∃ t, Obtained toyHash [1, 2, 3, 4] t ∧
      verifyInclusion toyHash t.root.hash ⟨.script 0xc0 3, [96] ++ [607]⟩ = some true :=
    ⟨_, .build 2 rfl rfl, by decide +kernel⟩
  exact ⟨t, ht, (C20_hidden toyHash _ 613 (.script 0xc0 3) [96] [607] (by simp) (by decide)).trans h⟩

end TapStark.Tap
