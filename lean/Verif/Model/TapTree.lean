import Mathlib.Order.Defs.LinearOrder

/-
Model of the taproot tree of basic/src/tcs: `TreeBuilder`, `CompleteTaptree` and the inclusion
checks.

External: the tap node type `NodeInfo`, `LeafNode` and `TapNodeHash` of the bitcoin crate.  They
are modelled from their public behaviour: a node is its hash together with its leaves in order,
every leaf carries the merkle branch collected so far (nearest sibling first, at most 128 entries),
and `NodeInfo::combine_with_order` puts the child with the smaller hash first and reports whether
the first argument was that child.  Leaf hashing and branch hashing are parameters (`TapHash`), the
byte order of hashes is any linear order.

A Rust panic (failed assertion, `unwrap` of `None`, index out of bounds) is `none`.
-/

namespace TapStark.Tap

/-- The two hash functions of the bitcoin crate: tap leaf (version and script) and tap branch
(two child hashes in the order they are fed to the engine).  External; left abstract. -/
structure TapHash (S H : Type) where
  leafHash : Nat → S → H
  branchHash : H → H → H

/-- `bitcoin::taproot::TapLeaf`: a script with its leaf version, or a hidden node. -/
inductive LeafKind (S H : Type)
  | script (ver : Nat) (s : S)
  | hidden (h : H)
  deriving DecidableEq, Repr

/-- `bitcoin::taproot::LeafNode`: what the leaf holds and its merkle branch. -/
structure Leaf (S H : Type) where
  kind : LeafKind S H
  branch : List H
  deriving DecidableEq, Repr

/-- `bitcoin::taproot::NodeInfo`: node hash and leaves in tree order. -/
structure Node (S H : Type) where
  hash : H
  leaves : List (Leaf S H)
  deriving DecidableEq, Repr

variable {S H : Type} [LinearOrder H]

/-- `TapNodeHash::from_node_hashes` (used at basic/src/tcs/complete_taptree.rs:58-61, 69-72): the
smaller hash is fed first. -/
def nodeHashes (th : TapHash S H) (a b : H) : H :=
  if a < b then th.branchHash a b else th.branchHash b a

/-- `LeafNode::node_hash` (used at complete_taptree.rs:58, 69). -/
def Leaf.nodeHash (th : TapHash S H) (l : Leaf S H) : H :=
  match l.kind with
  | .script v s => th.leafHash v s
  | .hidden h => h

/-- `LeafNode::script` (used at basic/src/tcs/mod.rs:142). -/
def Leaf.script? (l : Leaf S H) : Option S :=
  match l.kind with
  | .script _ s => some s
  | .hidden _ => none

/-- Leaf version `TapScript` (used at basic/src/tcs/builder.rs:26). -/
def tapScript : Nat := 0xc0

/-- `NodeInfo::new_leaf_with_ver` (used at builder.rs:26). -/
def newLeaf (th : TapHash S H) (s : S) : Node S H :=
  { hash := th.leafHash tapScript s, leaves := [⟨.script tapScript s, []⟩] }

/-- `TaprootMerkleBranch::push`: fails beyond 128 entries. -/
def pushBranch (h : H) (l : Leaf S H) : Option (Leaf S H) :=
  if l.branch.length < 128 then some { l with branch := l.branch ++ [h] } else none

/-- `NodeInfo::combine_with_order` (used at builder.rs:64 and basic/src/tcs/mod.rs:481); `none` is
the crate's error result. -/
def combineWithOrder (th : TapHash S H) (a b : Node S H) : Option (Node S H × Bool) := do
  let leftFirst : Bool := decide (a.hash < b.hash)
  let x := if leftFirst then a else b
  let y := if leftFirst then b else a
  let xs ← x.leaves.mapM (pushBranch y.hash)
  let ys ← y.leaves.mapM (pushBranch x.hash)
  some ({ hash := nodeHashes th a.hash b.hash, leaves := xs ++ ys }, leftFirst)

/-- `TreeBuilder` (builder.rs:8-13).  `Node` stands for `NodeInfo`. -/
structure Builder (S H : Type) where
  leafCount : Nat
  leafIndices : List Nat
  toAddLeaves : List (Node S H)

/-- `TreeBuilder::new` (builder.rs:16-22). -/
def Builder.new : Builder S H := ⟨0, [], []⟩

/-- `TreeBuilder::add_leaf` (builder.rs:24-29). -/
def Builder.addLeaf (th : TapHash S H) (b : Builder S H) (s : S) : Builder S H :=
  { leafCount := b.leafCount + 1
    leafIndices := b.leafIndices ++ [b.leafCount + 1 - 1]
    toAddLeaves := b.toAddLeaves ++ [newLeaf th s] }

/-- `is_power_of_two` on a `u32` (builder.rs:104-106). -/
def isPowerOfTwo (n : Nat) : Bool := decide (n > 0) && (n &&& (n - 1)) == 0

/-- `l[start..stop]`. -/
def slice {α : Type} (l : List α) (start stop : Nat) : List α := (l.drop start).take (stop - start)

/-- The loop over pairs (builder.rs:57-84): `start` is `a_start_idx`.  Combines neighbours and
swaps the two index ranges when the second node comes first. -/
def pairLoop (th : TapHash S H) : List (Node S H) → Nat → List Nat →
    Option (List (Node S H) × List Nat)
  | a :: b :: rest, start, idx => do
    let aEnd := start + a.leaves.length
    let bEnd := aEnd + b.leaves.length
    let (n, leftFirst) ← combineWithOrder th a b
    let idx' ←
      if leftFirst then some idx
      else if bEnd ≤ idx.length then
        some (idx.take start ++ slice idx aEnd bEnd ++ slice idx start aEnd ++ idx.drop bEnd)
      else none
    let (todo, idx'') ← pairLoop th rest bEnd idx'
    some (n :: todo, idx'')
  | _, _, idx => some ([], idx)

/-- The outer `while working_nodes.len() > 1` loop (builder.rs:45-87).  An odd last node is popped
and lost, as in the code.  `fuel` bounds the number of iterations; the caller supplies the number
of nodes, which always suffices because every iteration at least halves it. -/
def buildLoop (th : TapHash S H) : Nat → List (Node S H) → List Nat →
    Option (List (Node S H) × List Nat)
  | 0, nodes, idx => if nodes.length ≤ 1 then some (nodes, idx) else none
  | fuel + 1, nodes, idx =>
    if nodes.length ≤ 1 then some (nodes, idx)
    else do
      let nodes' := if nodes.length % 2 = 1 then nodes.dropLast else nodes
      let (todo, idx') ← pairLoop th nodes' 0 idx
      buildLoop th fuel todo idx'

/-- `reverse_idx_dict` (builder.rs:96-102): the loop over positions, each write checked. -/
def reverseLoop : List Nat → Nat → List Nat → Option (List Nat)
  | [], _, ret => some ret
  | pos :: rest, i, ret =>
    if pos < ret.length then reverseLoop rest (i + 1) (ret.set pos i) else none

/-- `reverse_idx_dict` (builder.rs:96-102). -/
def reverseIdxDict (idx : List Nat) : Option (List Nat) :=
  reverseLoop idx 0 (List.replicate idx.length 0)

/-- `CompleteTaptree` (complete_taptree.rs:8-12). -/
structure Tree (S H : Type) where
  root : Node S H
  leafCount : Nat
  leafIndices : List Nat
  deriving DecidableEq, Repr

/-- `TreeBuilder::build_tree` (builder.rs:38-94).  `leaf_count as u32` truncates. -/
def Builder.buildTree (th : TapHash S H) (b : Builder S H) : Option (Tree S H) :=
  if isPowerOfTwo (b.toAddLeaves.length % 2 ^ 32) then do
    let (nodes, idx) ← buildLoop th b.toAddLeaves.length b.toAddLeaves b.leafIndices
    let root ← nodes.head?
    let rev ← reverseIdxDict idx
    some ⟨root, b.toAddLeaves.length, rev⟩
  else none

/-- `CompleteTaptree::new_with_scripts` (complete_taptree.rs:78-84); the scripts are already
completed (`ScriptToEmbbed::compelte_script` of a plain script is the script itself,
basic/src/tcs/mod.rs:487-510). -/
def Tree.newWithScripts (th : TapHash S H) (scripts : List S) : Option (Tree S H) :=
  (scripts.foldl (Builder.addLeaf th) Builder.new).buildTree th

/-- `index_map` (complete_taptree.rs:45-47); out of bounds panics. -/
def Tree.indexMap (t : Tree S H) (i : Nat) : Option Nat := t.leafIndices[i]?

/-- `get_tapleaf` (complete_taptree.rs:49-52); outer `none` is a panic. -/
def Tree.getTapleaf (t : Tree S H) (i : Nat) : Option (Option (Leaf S H)) := do
  let j ← t.indexMap i
  some t.root.leaves[j]?

/-- `get_leaf_merkle_path` (complete_taptree.rs:36-43). -/
def Tree.getLeafMerklePath (t : Tree S H) (i : Nat) : Option (Option (List H)) := do
  let j ← t.indexMap i
  some (t.root.leaves[j]?.map Leaf.branch)

/-- `get_leaf_proof` (complete_taptree.rs:147-151). -/
def Tree.getLeafProof (t : Tree S H) (i : Nat) : Option (Leaf S H × List H) := do
  let leaf ← (← t.getTapleaf i)
  let path ← (← t.getLeafMerklePath i)
  some (leaf, path)

/-- The hash walk shared by the two inclusion checks (complete_taptree.rs:58-61, 68-72); `path[0]`
panics on an empty path. -/
def pathRoot (th : TapHash S H) (leafHash : H) (path : List H) : Option H :=
  match path with
  | [] => none
  | p :: ps => some (ps.foldl (fun acc sib => nodeHashes th acc sib) (nodeHashes th leafHash p))

/-- `verify_inclusion` (complete_taptree.rs:67-75). -/
def verifyInclusion (th : TapHash S H) (root : H) (leaf : Leaf S H) : Option Bool := do
  let r ← pathRoot th (leaf.nodeHash th) leaf.branch
  some (decide (r = root))

/-- `verify_inclusion_by_index` (complete_taptree.rs:54-64): the index is mapped once here and
again inside the two getters. -/
def Tree.verifyInclusionByIndex (th : TapHash S H) (t : Tree S H) (i : Nat) : Option Bool := do
  let j ← t.indexMap i
  let leaf ← (← t.getTapleaf j)
  let path ← (← t.getLeafMerklePath j)
  let r ← pathRoot th (leaf.nodeHash th) path
  some (decide (r = t.root.hash))

/-- `combine` (complete_taptree.rs:96-133) with `combine_two_nodes` (basic/src/tcs/mod.rs:480-483)
and its `unwrap`. -/
def Tree.combine (th : TapHash S H) (a b : Tree S H) : Option (Tree S H) := do
  let (node, leftFirst) ← combineWithOrder th a.root b.root
  let idx :=
    if leftFirst then a.leafIndices ++ b.leafIndices.map (· + a.leafCount)
    else a.leafIndices.map (· + b.leafCount) ++ b.leafIndices
  some ⟨node, idx.length, idx⟩

/-- `combine_other_script` (complete_taptree.rs:87-94). -/
def Tree.combineOtherScript (th : TapHash S H) (a : Tree S H) (scripts : List S) :
    Option (Tree S H) := do
  let b ← Tree.newWithScripts th scripts
  a.combine th b

end TapStark.Tap
