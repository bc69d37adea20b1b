import Verif.Common
import Mathlib.Order.Defs.LinearOrder

/-!
Model of `structures/binary_tree.h` (`binary_node_t<T>`, `avl_tree_t<T>`) and of the parts of `structures/tree.h`
(`base_node_t`, `tree_t`) it uses.

A node carries its identity (allocated from `next`), the stored `_parent` pointer, the value, the stored `_height`
and the two children.

Simplifications:
* `value < x`, `value > x`, `value == x` come from one linear order on `T`.
* heights are unbounded naturals; `height(l) - height(r) == 2` (unsigned) is modelled as `height l = height r + 2`, which
  is the same for heights below 2^63.
* `insert_left`/`insert_right`/the root case create the new leaf directly under its parent; the `rotate_if_needed` that
  the root case then runs on a single leaf does nothing (`rotateIfNeeded_leaf` in Lemmas.lean).
* `*temp` in `remove` (binary_tree.h:905-906) converts the node to a temporary `T`, so the value passed down is a copy.
* memory freed too early or not at all is not tracked here (old roots leaked by assignment).
-/

namespace Verif.Avl

/-- `binary_node_t`: identity, `_parent`, `_node`, `_height`, `_left`, `_right` (tree.h:224-225,
binary_tree.h:433-435). -/
inductive Tree (α : Type) where
  | nil
  | node (id : Nat) (par : Option Nat) (val : α) (h : Nat) (l r : Tree α)
deriving DecidableEq, Repr

namespace Tree
variable {α : Type}

/-- binary_tree.h:932-935 `height(node)`. -/
def height : Tree α → Nat
  | nil => 0
  | node _ _ _ h _ _ => h

/-- tree.h:220-222 `set_parent`. -/
def setParent (p : Option Nat) : Tree α → Tree α
  | nil => nil
  | node i _ v h l r => node i p v h l r

/-- binary_tree.h:942-955 `rotate_right`: the moved subtree `r2` keeps its `_parent`. -/
def rotateRight : Tree α → Tree α
  | node i p v _ (node i2 _ v2 _ l2 r2) r =>
    let hOther := max r2.height r.height + 1
    let hHead := max l2.height hOther + 1
    node i2 p v2 hHead l2 (node i (some i2) v hOther r2 r)
  | t => t

/-- binary_tree.h:962-975 `rotate_left`. -/
def rotateLeft : Tree α → Tree α
  | node i p v _ l (node i2 _ v2 _ l2 r2) =>
    let hOther := max l.height l2.height + 1
    let hHead := max r2.height hOther + 1
    node i2 p v2 hHead (node i (some i2) v hOther l l2) r2
  | t => t

/-- binary_tree.h:983-987 `double_rotate_left`. -/
def doubleRotateLeft : Tree α → Tree α
  | node i p v h l r => rotateLeft (node i p v h l (rotateRight r))
  | nil => nil

/-- binary_tree.h:995-999 `double_rotate_right`. -/
def doubleRotateRight : Tree α → Tree α
  | node i p v h l r => rotateRight (node i p v h (rotateLeft l) r)
  | nil => nil

/-- binary_tree.h:1007-1009 `leftmost`: the value of the leftmost node; `none` stands for a null argument (UB). -/
def leftmost : Tree α → Option α
  | nil => none
  | node _ _ v _ nil _ => some v
  | node _ _ _ _ (node i p w h l r) _ => leftmost (node i p w h l r)

/-- binary_tree.h:1017-1019 `rightmost`. -/
def rightmost : Tree α → Option α
  | nil => none
  | node _ _ v _ _ nil => some v
  | node _ _ _ _ _ (node i p w h l r) => rightmost (node i p w h l r)

/-- binary_tree.h:817-843 `rotate_on_remove_if_needed`. -/
def rotateOnRemove : Tree α → Tree α
  | nil => nil
  | node i p v _ l r =>
    let t := node i p v (max l.height r.height + 1) l r
    if l.height = r.height + 2 then
      match l with
      | node _ _ _ _ ll lr => if ll.height = lr.height + 1 then rotateRight t else doubleRotateRight t
      | nil => t  -- not reached: a null child has height 0
    else if r.height = l.height + 2 then
      match r with
      | node _ _ _ _ rl rr => if rr.height = rl.height + 1 then rotateLeft t else doubleRotateLeft t
      | nil => t  -- not reached
    else t

variable [LinearOrder α]

/-- binary_tree.h:788-808 `rotate_if_needed`. -/
def rotateIfNeeded (x : α) : Tree α → Tree α
  | nil => nil
  | node i p v _ l r =>
    let t := node i p v (max l.height r.height + 1) l r
    if l.height = r.height + 2 then
      match l with
      | node _ _ lv _ _ _ => if x < lv then rotateRight t else doubleRotateRight t
      | nil => t  -- not reached: a null child has height 0
    else if r.height = l.height + 2 then
      match r with
      | node _ _ rv _ _ _ => if rv < x then rotateLeft t else doubleRotateLeft t
      | nil => t  -- not reached
    else t

/-- binary_tree.h:853-881 `insert` with l.754-779 `insert_left`, `insert_right`; `par` is the parent a new node gets,
`n` is `_number_of_elements`.  Returns the tree, `inserted` and the counter. -/
def insert (dups : Bool) (fresh : Nat) (x : α) (n : Nat) : Option Nat → Tree α → Tree α × Bool × Nat
  | par, nil => (node fresh par x 1 nil nil, true, (n + 1) % W)
  | _, node i p v h l r =>
    if x < v then
      let (l', inserted, n) := insert dups fresh x n (some i) l
      let t := node i p v h l' r
      (if inserted then rotateIfNeeded x t else t, inserted, n)
    else if v < x then
      let (r', inserted, n) := insert dups fresh x n (some i) r
      let t := node i p v h l r'
      (if inserted then rotateIfNeeded x t else t, inserted, n)
    else if dups then
      let (r', inserted, n) := insert dups fresh x n (some i) r
      let t := node i p v h l r'
      (if inserted then rotateIfNeeded x t else t, inserted, n)
    else (node i p v h l r, false, n)

/-- binary_tree.h:891-925 `remove`.  Returns the tree, `removed` and the counter. -/
def remove (n : Nat) : Tree α → α → Tree α × Bool × Nat
  | nil, _ => (nil, false, n)
  | node i p v h l r, x =>
    if x < v then
      let (l', removed, n) := remove n l x
      (rotateOnRemove (node i p v h l' r), removed, n)
    else if v < x then
      let (r', removed, n) := remove n r x
      (rotateOnRemove (node i p v h l r'), removed, n)
    else
      match l, r with
      | nil, nil => (nil, true, (n + W - 1) % W)
      | node li lp lv lh ll lr, nil =>
        (rotateOnRemove (setParent p (node li lp lv lh ll lr)), true, (n + W - 1) % W)
      | nil, node ri rp rv rh rl rr =>
        (rotateOnRemove (setParent p (node ri rp rv rh rl rr)), true, (n + W - 1) % W)
      | node li lp lv lh ll lr, node ri rp rv rh rl rr =>
        match leftmost (node ri rp rv rh rl rr) with
        | none => (node i p v h (node li lp lv lh ll lr) (node ri rp rv rh rl rr), false, n)  -- not reached
        | some m =>
          let (r', removed, n) := remove n (node ri rp rv rh rl rr) m
          (rotateOnRemove (node i p m h (node li lp lv lh ll lr) r'), removed, n)

/-- binary_tree.h:728-745 `contains`. -/
def contains (x : α) : Tree α → Bool
  | nil => false
  | node _ _ v _ l r =>
    if x < v then contains x l
    else if v < x then contains x r
    else decide (x = v)

omit [LinearOrder α] in
/-- binary_tree.h:155-171 `binary_node_t::operator=(const binary_node_t&)` on a new node: new children with the right
parents, the values, and the default `_height` 1 everywhere. -/
def copy (par : Option Nat) : Tree α → Nat → Tree α × Nat
  | nil, next => (nil, next)
  | node _ _ v _ l r, next =>
    let i := next
    let (l', next) := copy (some i) l (next + 1)
    let (r', next) := copy (some i) r next
    (node i par v 1 l' r', next)

end Tree

/-- `avl_tree_t`: `_root`, `_allow_duplicates`, `_number_of_elements` (binary_tree.h:1027-1028), and the allocator. -/
structure Avl (α : Type) where
  root : Tree α
  dups : Bool
  size : Nat
  next : Nat
deriving DecidableEq, Repr

namespace Avl
variable {α : Type}

/-- binary_tree.h:471 default constructor. -/
def new : Avl α := ⟨.nil, false, 0, 0⟩

/-- binary_tree.h:610-613 `clear`. -/
def clear (a : Avl α) : Avl α := { a with root := .nil, size := 0 }

/-- binary_tree.h:518-520 `height`. -/
def height (a : Avl α) : Nat := a.root.height

/-- binary_tree.h:527-529 `left_most` (null dereference on an empty tree). -/
def leftMost (a : Avl α) : Res α :=
  match a.root.leftmost with
  | some v => .ok v
  | none => .ub

/-- binary_tree.h:536-538 `right_most`. -/
def rightMost (a : Avl α) : Res α :=
  match a.root.rightmost with
  | some v => .ok v
  | none => .ub

/-- tree.h:917-923 `tree_t::operator=(const tree_t&)` plus the implicit copy of the two members; `dst` is the object
assigned to (a fresh object for the copy constructor, tree.h:898-900). -/
def copyAssign (dst src : Avl α) : Avl α :=
  match src.root with
  | .nil => { dst with dups := src.dups, size := src.size }
  | t =>
    let (t', next) := t.copy none (max dst.next src.next)
    ⟨t', src.dups, src.size, next⟩

/-- Copy constructor. -/
def copy (src : Avl α) : Avl α := copyAssign new src

/-- tree.h:931-935 `tree_t::operator=(tree_t&&)` plus the implicit move of the two members (which copies them):
(destination, source afterwards). -/
def moveAssign (_dst src : Avl α) : Avl α × Avl α := (src, { src with root := .nil })

variable [LinearOrder α]

/-- binary_tree.h:480-484 `insert`. -/
def insert (a : Avl α) (x : α) : Avl α × Bool :=
  let (t, inserted, n) := a.root.insert a.dups a.next x a.size none
  ({ a with root := t, size := n, next := a.next + 1 }, inserted)

/-- binary_tree.h:492-496 `remove`. -/
def remove (a : Avl α) (x : α) : Avl α × Bool :=
  let (t, removed, n) := a.root.remove a.size x
  ({ a with root := t, size := n }, removed)

/-- binary_tree.h:505-511 `remove_all`; the loop runs at most `fuel` times, `none` if that is not enough. -/
def removeAllFuel : Nat → Avl α → α → Nat → Option (Avl α × Nat)
  | 0, _, _, _ => none
  | fuel + 1, a, x, cnt =>
    match a.remove x with
    | (a, true) => removeAllFuel fuel a x (cnt + 1)
    | (a, false) => some (a, cnt)

/-- Number of nodes. -/
def nodes : Tree α → Nat
  | .nil => 0
  | .node _ _ _ _ l r => nodes l + nodes r + 1

/-- binary_tree.h:505-511 `remove_all`: UB (does not terminate) if more rounds than nodes were needed. -/
def removeAll (a : Avl α) (x : α) : Res (Avl α × Nat) :=
  match removeAllFuel (nodes a.root + 1) a x 0 with
  | some r => .ok r
  | none => .ub

/-- binary_tree.h:546-548 `contains`. -/
def contains (a : Avl α) (x : α) : Bool := a.root.contains x

end Avl

/-- Public mutators. -/
inductive Op (α : Type) where
  | insert (x : α) | remove (x : α) | removeAll (x : α) | clear | enableDuplicates | disableDuplicates
deriving DecidableEq, Repr

/-- Results of the mutators. -/
inductive Out where
  | unit | bool (b : Bool) | count (n : Nat)
deriving DecidableEq, Repr

variable {α : Type} [LinearOrder α]

/-- One call (enable/disable: binary_tree.h:573-585). -/
def step (a : Avl α) : Op α → Res (Avl α × Out)
  | .insert x => .ok ((a.insert x).1, .bool (a.insert x).2)
  | .remove x => .ok ((a.remove x).1, .bool (a.remove x).2)
  | .removeAll x => do let (a, k) ← a.removeAll x; .ok (a, .count k)
  | .clear => .ok (a.clear, .unit)
  | .enableDuplicates => .ok ({ a with dups := true }, .unit)
  | .disableDuplicates => .ok ({ a with dups := false }, .unit)

/-- A history of calls. -/
def run (a : Avl α) : List (Op α) → Res (Avl α × List Out)
  | [] => .ok (a, [])
  | op :: ops => do
    let (a, o) ← step a op
    let (a, os) ← run a ops
    .ok (a, o :: os)

end Verif.Avl
