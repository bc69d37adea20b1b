import Verif.Nary.Model

/-!
Specification of traversal orders and of the slot vector.  Shared with the model: the tree types only.
-/

namespace Verif.Nary.Spec
variable {α ν : Type}

/-- The part of a visiting order that is visited when the search stops after the first node for which `f` is true; `tr`
are the calls made before. -/
def cut (f : Callback ν) (tr : List ν) : List ν → List ν
  | [] => []
  | n :: l => if f tr n then [n] else n :: cut f (tr ++ [n]) l

/-- Node before its children, children left to right. -/
def preorder : Slots α → List (Node α)
  | .nil => []
  | .null r => preorder r
  | .node v k r => (v, k) :: preorder k ++ preorder r

/-- Children left to right, then the node. -/
def postorder : Slots α → List (Node α)
  | .nil => []
  | .null r => postorder r
  | .node v k r => postorder k ++ (v, k) :: postorder r

/-- Nodes at depth `d` below, left to right. -/
def atDepth : Slots α → Nat → List (Node α)
  | .nil, _ => []
  | .null r, d => atDepth r d
  | .node v k r, 0 => (v, k) :: atDepth r 0
  | .node _ k r, d + 1 => atDepth k d ++ atDepth r (d + 1)

/-- Number of levels. -/
def levels : Slots α → Nat
  | .nil => 0
  | .null r => levels r
  | .node _ k r => max (levels k + 1) (levels r)

/-- Level by level, left to right. -/
def levelOrder (t : Slots α) : List (Node α) := (List.range (levels t)).flatMap (atDepth t)

/-- Number of nodes. -/
def count : Slots α → Nat
  | .nil => 0
  | .null r => count r
  | .node _ k r => 1 + count k + count r

/-- `n` placed between the visits of its slots: alone without slots, after a single one, otherwise between consecutive
ones. -/
def between (n : ν) : List (List ν) → List ν
  | [] => [n]
  | [p] => p ++ [n]
  | p :: q :: ps => p ++ [n] ++ (match ps with
      | [] => q
      | _ => between n (q :: ps))

/-- In-order visit of every slot. -/
def parts : Slots α → List (List (Node α))
  | .nil => []
  | .null r => [] :: parts r
  | .node v k r => between (v, k) (parts k) :: parts r

/-- In-order visit of a node. -/
def inorderN (n : Node α) : List (Node α) := between n (parts n.2)

/-- The slots of one node as a partial map from positions to children. -/
def kidAt (s : NodeSt α) (p : Nat) : Option (Kid α) := (s.slots[p]?).join

/-- Number of children. -/
def kidCount (s : NodeSt α) : Nat := (s.slots.filterMap id).length

/-! Binary trees. -/

/-- Left, node, right. -/
def bInorder : Avl.Tree α → List (BNode α)
  | .nil => []
  | .node i _ v _ l r => bInorder l ++ (i, v, l, r) :: bInorder r

/-- Node, left, right. -/
def bPreorder : Avl.Tree α → List (BNode α)
  | .nil => []
  | .node i _ v _ l r => (i, v, l, r) :: bPreorder l ++ bPreorder r

/-- Left, right, node. -/
def bPostorder : Avl.Tree α → List (BNode α)
  | .nil => []
  | .node i _ v _ l r => bPostorder l ++ bPostorder r ++ [(i, v, l, r)]

/-- Left, node, right, where a node satisfying `p` hides its right subtree. -/
def bInorderPruned (p : BNode α → Bool) : Avl.Tree α → List (BNode α)
  | .nil => []
  | .node i _ v _ l r =>
    bInorderPruned p l ++ (i, v, l, r) :: (if p (i, v, l, r) then [] else bInorderPruned p r)

/-- Node, left, right, where a node satisfying `p` hides its children. -/
def bPreorderPruned (p : BNode α → Bool) : Avl.Tree α → List (BNode α)
  | .nil => []
  | .node i _ v _ l r =>
    (i, v, l, r) :: (if p (i, v, l, r) then [] else bPreorderPruned p l ++ bPreorderPruned p r)

/-- Number of nodes. -/
def bCount : Avl.Tree α → Nat
  | .nil => 0
  | .node _ _ _ _ l r => bCount l + bCount r + 1

end Verif.Nary.Spec
