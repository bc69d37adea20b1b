import Verif.Mem.BinModel
import Verif.Mem.Spec

/-! Specification of programs over plain binary trees: each tree object is an immutable tree of values. -/

namespace Verif.Mem.Spec
variable {α : Type}

inductive BT (α : Type) where
  | nil
  | node (v : α) (l r : BT α)
deriving DecidableEq, Repr

/-- The subtree at a path; `nil` if there is none. -/
def BT.at : BT α → List Bool → BT α
  | t, [] => t
  | .nil, _ :: _ => .nil
  | .node _ l r, b :: path => BT.at (if b then r else l) path

/-- Replace the subtree at a path. -/
def BT.put : BT α → List Bool → BT α → BT α
  | _, [], u => u
  | .nil, _ :: _, _ => .nil
  | .node v l r, true :: path, u => .node v l (r.put path u)
  | .node v l r, false :: path, u => .node v (l.put path u) r

/-- What hangs at `p` in memory, read by following pointers; every node read is allocated. -/
inductive Looks (s : St α) : Ptr → BT α → Prop
  | null : Looks s none .nil
  | node {i : Nat} {c : Cell α} {l r : BT α} : s.mem i = some c → Looks s c.left l → Looks s c.right r →
      Looks s (some i) (.node c.val l r)

def setTree (S : Nat → BT α) (k : Nat) (t : BT α) : Nat → BT α := fun j => if j = k then t else S j

/-- Change the node at a path: `f` gets its value and children. -/
def BT.onNode (S : Nat → BT α) (k : Nat) (p : List Bool) (f : α → BT α → BT α → BOut × BT α) : BOut × (Nat → BT α) :=
  match (S k).at p with
  | .nil => (.thrown, S)
  | .node v l r => ((f v l r).1, setTree S k ((S k).put p (f v l r).2))

/-- The meaning of the calls on values. -/
def bspec (S : Nat → BT α) : BOp α → BOut × (Nat → BT α)
  | .addRoot k x => (.unit, setTree S k (.node x .nil .nil))
  | .addLeft k p x => BT.onNode S k p fun v l r =>
    match l with
    | .nil => (.bool true, .node v (.node x .nil .nil) r)
    | l => (.bool false, .node v l r)
  | .addRight k p x => BT.onNode S k p fun v l r =>
    match r with
    | .nil => (.bool true, .node v l (.node x .nil .nil))
    | r => (.bool false, .node v l r)
  | .deleteChild k p dir => BT.onNode S k p fun v l r =>
    match dir, l, r with
    | 0, .node _ _ _, r => (.bool true, .node v .nil r)
    | 1, l, .node _ _ _ => (.bool true, .node v l .nil)
    | _, l, r => (.bool false, .node v l r)
  | .swap k p dir => BT.onNode S k p fun v l r =>
    match dir, l, r with
    | 0, .node w a b, r => (.unit, .node w (.node v a b) r)
    | 1, l, .node w a b => (.unit, .node w l (.node v a b))
    | _, l, r => (.unit, .node v l r)
  | .setValue k p x => BT.onNode S k p fun _ l r => (.unit, .node x l r)
  | .clearNode k p => BT.onNode S k p fun v _ _ => (.unit, .node v .nil .nil)
  | .assign k p j q =>
    match (S j).at q, (S k).at p with
    | .node v l r, .node _ _ _ => (.unit, setTree S k ((S k).put p (.node v l r)))
    | _, _ => (.thrown, S)
  | .moveAssign k p j q =>
    match (S j).at q, (S k).at p with
    | .node v l r, .node _ _ _ =>
      let S := setTree S j ((S j).put q (.node v .nil .nil))
      (.unit, setTree S k ((S k).put p (.node v l r)))
    | _, _ => (.thrown, S)
  | .clear k => (.unit, setTree S k .nil)
  | .copy k j => (.unit, setTree S k (S j))
  | .move k j => (.unit, setTree (setTree S k (S j)) j .nil)

def brunSpec (S : Nat → BT α) : List (BOp α) → List BOut × (Nat → BT α)
  | [] => ([], S)
  | op :: ops => ((bspec S op).1 :: (brunSpec (bspec S op).2 ops).1, (brunSpec (bspec S op).2 ops).2)

/-- Neither of the two nodes contains the other. -/
def Separate (k : Nat) (p : List Bool) (j : Nat) (q : List Bool) : Prop := k = j → ¬ p <+: q ∧ ¬ q <+: p

/-- Node assignments are between separate nodes. -/
def NodeSane : BOp α → Prop
  | .assign k p j q | .moveAssign k p j q => Separate k p j q
  | _ => True

/-- The node `(j, q)` is a proper descendant of `(k, p)`. -/
def Below (k : Nat) (p : List Bool) (j : Nat) (q : List Bool) : Prop := k = j ∧ p <+: q ∧ p ≠ q

/-- No node is assigned (copied or moved) from a proper descendant, or copied from a proper ancestor. -/
def NodeSafe : BOp α → Prop
  | .assign k p j q => ¬ Below k p j q ∧ ¬ Below j q k p
  | .moveAssign k p j q => ¬ Below k p j q
  | _ => True

/-- Both nodes of a node assignment exist. -/
def NodesExist (s : St α) : BOp α → Prop
  | .assign k p j q | .moveAssign k p j q => follow s (s.roots k) p ≠ none ∧ follow s (s.roots j) q ≠ none
  | _ => True

/-- Trees are not assigned to themselves, and empty trees are assigned by moving only. -/
def TreeSane (S : Nat → BT α) : BOp α → Prop
  | .copy k j => k ≠ j ∧ (S j = .nil → S k = .nil)
  | .move k j => k ≠ j
  | _ => True

/-- Trees are assigned to other, empty trees. -/
def TreeToEmpty (S : Nat → BT α) : BOp α → Prop
  | .copy k j | .move k j => k ≠ j ∧ S k = .nil
  | _ => True

/-- No tree is assigned to a non-empty tree, except copies of empty ones; no node is moved to a proper descendant. -/
def Tidy (s : St α) : BOp α → Prop
  | .copy k j => s.roots k = none ∨ s.roots j = none
  | .move k _ => s.roots k = none
  | .moveAssign k p j q => Below j q k p → follow s (s.roots k) p = none
  | _ => True

/-- Every operation of the program is allowed by `P` in the state where it is executed. -/
def BAlwaysIn (dflt : α) (P : St α → BOp α → Prop) (s : St α) : List (BOp α) → Prop
  | [] => True
  | op :: ops => P s op ∧ ∀ o s', bstep dflt s op = .ok (o, s') → BAlwaysIn dflt P s' ops

/-- Nodes are moved from only if they are roots. -/
def MovesRoots : BOp α → Prop
  | .moveAssign _ _ _ q => q = []
  | _ => True

/-- Every operation of the program is allowed by `P` when it is executed. -/
def BAlways (P : (Nat → BT α) → BOp α → Prop) (S : Nat → BT α) : List (BOp α) → Prop
  | [] => True
  | op :: ops => P S op ∧ BAlways P (bspec S op).2 ops

end Verif.Mem.Spec
