import Verif.Mem.Mixed

/-!
Traversals whose callback changes the trees while it is called: structures/binary_tree.h:310-419 (`in_order`, `pre_order`,
`pos_order` of nodes), structures/tree.h:1064-1116 (`breadth_first_search`) and 1122-1180 (`depth_first_search`) on the memory of
`Verif.Mem.Model`.

* At each call the callback executes any operations of `Verif.Mem.Mixed`, on any tree, and answers.  It may depend on the visited
  node, on the nodes visited before and on the whole memory.
* A call of a member function of a node that was deleted, and the call of the callback with such a node, are UB.
* Traversals may go on forever here, so they have a result of their own: `long` says that the fuel was used up.
* The `const` versions run the same code; a callback can change the tree through another reference.
-/

namespace Verif.Mem
variable {α : Type} [LinearOrder α]

inductive Run (β : Type) where
  | ok (b : β)
  | ub
  | long
deriving DecidableEq, Repr

def Run.bind {β γ : Type} (r : Run β) (f : β → Run γ) : Run γ :=
  match r with
  | .ok b => f b
  | .ub => .ub
  | .long => .long

instance : Monad Run where
  pure := .ok
  bind := Run.bind

/-- The results of the memory operations; the exceptions are already caught there. -/
def Run.of {β : Type} : Res β → Run β
  | .ok b => .ok b
  | _ => .ub

/-- What a callback does, with the nodes visited before, the visited node and the memory: some operations, and its answer. -/
abbrev Callback (α : Type) := List Nat → Nat → World α → List (MOp α) × Bool

/-- `func(*node)`. -/
def visit (dflt : α) (cb : Callback α) (w : World α) (tr : List Nat) (i : Nat) : Run (Bool × List Nat × World α) := do
  let _ ← Run.of (cell w.s i)
  let (_, w') ← Run.of (mrun dflt w (cb tr i w).1)
  .ok ((cb tr i w).2, tr ++ [i], w')

/-- binary_tree.h:315-327 and 371-383 `in_order`. -/
def inOrder (dflt : α) (cb : Callback α) : Nat → World α → List Nat → Nat → Run (Nat × List Nat × World α)
  | 0, _, _, _ => .long
  | fuel + 1, w, tr, i => do
    let c ← Run.of (cell w.s i)
    let (n, tr, w) ← (match c.left with
      | some l => inOrder dflt cb fuel w tr l
      | none => .ok (0, tr, w))
    let (stop, tr, w) ← visit dflt cb w tr i
    if stop then .ok (n + 1, tr, w)
    else do
      let c ← Run.of (cell w.s i)
      let (m, tr, w) ← (match c.right with
        | some r => inOrder dflt cb fuel w tr r
        | none => .ok (0, tr, w))
      .ok (n + 1 + m, tr, w)

/-- binary_tree.h:334-346 and 390-402 `pre_order`. -/
def preOrder (dflt : α) (cb : Callback α) : Nat → World α → List Nat → Nat → Run (Nat × List Nat × World α)
  | 0, _, _, _ => .long
  | fuel + 1, w, tr, i => do
    let (stop, tr, w) ← visit dflt cb w tr i
    if stop then .ok (1, tr, w)
    else do
      let c ← Run.of (cell w.s i)
      let (n, tr, w) ← (match c.left with
        | some l => preOrder dflt cb fuel w tr l
        | none => .ok (0, tr, w))
      let c ← Run.of (cell w.s i)
      let (m, tr, w) ← (match c.right with
        | some r => preOrder dflt cb fuel w tr r
        | none => .ok (0, tr, w))
      .ok (1 + n + m, tr, w)

/-- binary_tree.h:353-363 and 409-419 `pos_order`; the answer of the callback is ignored. -/
def posOrder (dflt : α) (cb : Callback α) : Nat → World α → List Nat → Nat → Run (Nat × List Nat × World α)
  | 0, _, _, _ => .long
  | fuel + 1, w, tr, i => do
    let c ← Run.of (cell w.s i)
    let (n, tr, w) ← (match c.left with
      | some l => posOrder dflt cb fuel w tr l
      | none => .ok (0, tr, w))
    let c ← Run.of (cell w.s i)
    let (m, tr, w) ← (match c.right with
      | some r => posOrder dflt cb fuel w tr r
      | none => .ok (0, tr, w))
    let (_, tr, w) ← visit dflt cb w tr i
    .ok (n + m + 1, tr, w)

/-- The children of a node that are not null (binary_tree.h:427-430 `children`). -/
def kids (c : Cell α) : List Nat := [c.left, c.right].filterMap id

/-- tree.h:1064-1116 and 1122-1180: the loop of both searches; `deep` is the depth first search, its stack has the top first.
The children are read also if the callback stops the search. -/
def search (dflt : α) (cb : Callback α) (deep : Bool) : Nat → World α → List Nat → List Nat → Run (Nat × List Nat × World α)
  | 0, _, _, _ => .long
  | _ + 1, w, tr, [] => .ok (0, tr, w)
  | fuel + 1, w, tr, i :: pending => do
    let (stop, tr, w) ← visit dflt cb w tr i
    let c ← Run.of (cell w.s i)
    if stop then .ok (1, tr, w)
    else do
      let (n, tr, w) ← search dflt cb deep fuel w tr (if deep then kids c ++ pending else pending ++ kids c)
      .ok (n + 1, tr, w)

inductive Kind where
  | inOrder
  | preOrder
  | posOrder
  | breadthFirst
  | depthFirst
deriving DecidableEq, Repr

/-- A traversal of tree `k` (tree.h:968-1030 and the searches): 0 visits if it has no root.  The results are the number of visits
that the function returns, the visited nodes and the memory. -/
def traverse (dflt : α) (cb : Callback α) (kind : Kind) (fuel : Nat) (w : World α) (k : Nat) : Run (Nat × List Nat × World α) :=
  match w.s.roots k with
  | none => .ok (0, [], w)
  | some r =>
    match kind with
    | .inOrder => inOrder dflt cb fuel w [] r
    | .preOrder => preOrder dflt cb fuel w [] r
    | .posOrder => posOrder dflt cb fuel w [] r
    | .breadthFirst => search dflt cb false fuel w [] [r]
    | .depthFirst => search dflt cb true fuel w [] [r]

end Verif.Mem
