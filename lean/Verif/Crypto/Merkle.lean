import Mathlib.Data.Nat.Basic
import Mathlib.Data.Nat.Log
import Mathlib.Data.List.GetD
import Mathlib.Tactic.Linarith
import Mathlib.Tactic.Ring

/-!
# Merkle trees

Model of /repo/prover/tree/src/{tree,path,leaf,node}.rs. Keccak-256 is a parameter: `Hash` below
holds the two uses the code makes of it, `Leaf::leaf_hash` (leaf.rs:42-50) and `Node::node_hash`
(node.rs:40-49). `compact_new_with_field_elems` (tree.rs:57-96), which reinterprets the memory of field
elements as leaves, is not modelled. A panic is `none`.
-/

namespace JST.Merkle

/-- The hash functions, over leaves `L` and nodes `N`. -/
structure Hash (L N : Type) where
  leaf : L → N
  node : N → N → N

variable {L N : Type} [Inhabited N]

/-- `ark_std::log2`: the ceiling of the binary logarithm. -/
def log2 (x : Nat) : Nat := Nat.clog 2 x

/-- `left_child_index`, tree.rs:288-290. -/
def leftChild (i : Nat) : Nat := 2 * i + 1

/-- `is_left_child`, tree.rs:317-319. -/
def isLeftChild (i : Nat) : Bool := i % 2 == 1

/-- `sibling_index`, tree.rs:266-274; `none` is unwrapped by every caller. -/
def sibling (i : Nat) : Option Nat :=
  if i = 0 then none else if isLeftChild i then some (i + 1) else some (i - 1)

/-- `parent_index`, tree.rs:278-284. -/
def parent (i : Nat) : Option Nat := if i > 0 then some ((i - 1) / 2) else none

/-- `convert_index_to_last_level`, tree.rs:301-303. -/
def toLastLevel (index height : Nat) : Nat := index + 2 ^ (height - 1) - 1

/-- The first index of each non-leaf level, tree.rs:127-132. -/
def levelIndices : Nat → Nat → List Nat
  | 0, _ => []
  | n + 1, idx => idx :: levelIndices n (leftChild idx)

/-- Hash one non-leaf level, tree.rs:158-163. -/
def fillLevel (h : Hash L N) (nodes : List N) (start : Nat) : List N :=
  (List.range' start (leftChild start - start)).foldl
    (fun ns i => ns.set i (h.node (ns.getD (leftChild i) default) (ns.getD (leftChild i + 1) default)))
    nodes

/-- Hash the leaf level, tree.rs:135-152. -/
def fillLeafLevel (h : Hash L N) (nodes leafNodes : List N) (start : Nat) : List N :=
  (List.range' start (leftChild start - start)).foldl
    (fun ns i => ns.set i (h.node (leafNodes.getD (leftChild i - leftChild start) default)
      (leafNodes.getD (leftChild i - leftChild start + 1) default)))
    nodes

/-- `new_with_leaf_nodes`, tree.rs:109-168; the assertion on the number of leaves is `none`. -/
def newWithLeafNodes (h : Hash L N) (leafNodes : List N) (height : Nat) : Option (List N) :=
  if leafNodes.length ≠ 2 ^ (height - 1) then none
  else
    let nodes := List.replicate (2 ^ (height - 1) - 1) default
    if height ≤ 1 then some nodes
    else
      let levels := levelIndices (height - 1) 0
      let nodes := fillLeafLevel h nodes leafNodes (levels.getLastD 0)
      some (levels.dropLast.reverse.foldl (fillLevel h) nodes)

/-- `Tree`, tree.rs:12-16. -/
structure Tree (L N : Type) where
  nodes : List N
  leaves : List L
deriving DecidableEq

/-- `new_with_leaves`, tree.rs:42-53. -/
def newWithLeaves (h : Hash L N) (leaves : List L) : Option (Tree L N) := do
  let height := log2 (leaves.length + 1)
  let leafNodes := leaves.map h.leaf
  let nodes ← newWithLeafNodes h leafNodes height
  some ⟨nodes ++ leafNodes, leaves⟩

/-- `root`, tree.rs:172-174. -/
def Tree.root (t : Tree L N) : Option N := t.nodes[0]?

/-- `Path`, path.rs:12-17. -/
structure Path (L N : Type) where
  leaf : L
  pathNodes : List N
  index : Nat
deriving DecidableEq

/-- The climb of `gen_proof` and `gen_range_proof`, tree.rs:202-206, 234-238: siblings from the node
up to the root. -/
def climb (nodes : List N) (i : Nat) : Option (List N) :=
  if hi : i = 0 then some []
  else do
    let s ← sibling i
    let x ← nodes[s]?
    let rest ← climb nodes ((i - 1) / 2)
    some (x :: rest)
termination_by i
decreasing_by omega

/-- `gen_proof`, tree.rs:188-215: the sibling of the leaf is taken unconditionally. -/
def genProof (t : Tree L N) (index height : Nat) : Option (Path L N) := do
  let leafIdx := toLastLevel index height
  let leaf ← t.leaves[index]?
  let s ← sibling leafIdx
  let x ← t.nodes[s]?
  let p ← parent leafIdx
  let rest ← climb t.nodes p
  some ⟨leaf, (x :: rest).reverse, index⟩

/-- `index_query`, tree.rs:250-254. -/
def indexQuery (t : Tree L N) (index : Nat) : Option (Path L N) :=
  genProof t index (log2 (t.leaves.length + 1))

/-- The loop of `Path::root` and `Path::verify`, path.rs:66-72, over the siblings from the leaf up:
bit `i` of the index (`position_list`, path.rs:41-43) says on which side the current node is. The amount of the shift
of the `usize` wraps at 64 in a release build (with overflow checks, paths of 64 siblings or more would panic). -/
def hashUp (h : Hash L N) (index : Nat) : Nat → N → List N → N
  | _, cur, [] => cur
  | i, cur, s :: ss =>
    hashUp h index (i + 1) (if index / 2 ^ (i % 64) % 2 ≠ 0 then h.node s cur else h.node cur s) ss

/-- `Path::root`, path.rs:79-95. -/
def Path.root (h : Hash L N) (p : Path L N) : N :=
  hashUp h p.index 0 (h.leaf p.leaf) p.pathNodes.reverse

/-- `Path::verify`, path.rs:57-76. -/
def Path.verify [DecidableEq N] (h : Hash L N) (p : Path L N) (root : N) : Bool :=
  p.root h = root

/-- `common_ancestor`, tree.rs:306-313; `fuel` bounds the loop by the larger index (each step makes both
smaller, and unwrapping the parent of the root panics). -/
def commonAncestor : Nat → Nat → Nat → Option Nat
  | 0, l, r => if l = r then some l else none
  | fuel + 1, l, r =>
    if l = r then some l
    else do
      let l' ← parent l
      let r' ← parent r
      commonAncestor fuel l' r'

/-- `RangePath`, path.rs:104-110. -/
structure RangePath (L N : Type) where
  leaves : List L
  pathNodes : List N
  left : Nat
  right : Nat
deriving DecidableEq

/-- `usize::is_power_of_two`. -/
def isPow2 (n : Nat) : Bool := n ≠ 0 ∧ 2 ^ Nat.log 2 n = n

/-- `gen_range_proof`, tree.rs:219-247. -/
def genRangeProof (t : Tree L N) (left right height : Nat) : Option (RangePath L N) :=
  if ¬ (right > left) then none
  else if ¬ isPow2 (right - left + 1) then none
  else if left % (right - left + 1) ≠ 0 then none
  else if ¬ (right + 1 ≤ t.leaves.length) then none
  else do
    let l := toLastLevel left height
    let r := toLastLevel right height
    let c ← commonAncestor (max l r) l r
    let sibs ← climb t.nodes c
    some ⟨(t.leaves.drop left).take (right + 1 - left), sibs.reverse, left, right⟩

/-- `range_query`, tree.rs:257-261. -/
def rangeQuery (t : Tree L N) (left right : Nat) : Option (RangePath L N) :=
  genRangeProof t left right (log2 (t.leaves.length + 1))

/-- The loop of `RangePath::root`, path.rs:150-158. -/
def rangeUp (h : Hash L N) : Nat → N → List N → Option N
  | _, cur, [] => some cur
  | i, cur, s :: ss => do
    let p ← parent i
    rangeUp h p (if isLeftChild i then h.node cur s else h.node s cur) ss

/-- `RangePath::root`, path.rs:137-161. -/
def RangePath.root (h : Hash L N) (p : RangePath L N) : Option N := do
  let sub ← newWithLeaves h p.leaves
  let height := log2 (p.leaves.length + 1) + p.pathNodes.length
  let r ← sub.root
  let l' := toLastLevel p.left height
  let r' := toLastLevel p.right height
  let c ← commonAncestor (max l' r') l' r'
  rangeUp h c r p.pathNodes.reverse

/-- `RangePath::verify`, path.rs:164-166. -/
def RangePath.verify [DecidableEq N] (h : Hash L N) (p : RangePath L N) (root : N) : Option Bool := do
  let r ← p.root h
  some (r = root)

end JST.Merkle
