import Verif.Mem.Model

/-!
Programs over plain binary trees, `binary_tree_t` = `tree_t<T, binary_node_t<T>>` (structures/binary_tree.h:20-453,
structures/tree.h), on the memory of `Verif.Mem.Model`.

A program names a node by a tree and a path from its root (`true` is right), as in `t.root().left().right()`.  Exceptions of
`root()`, `left()` and `right()` are caught by the program, which goes on.  Values of the element type are copied; a moved-from
value keeps its value, as for the built-in types.
-/

namespace Verif.Mem
variable {α : Type}

/-- tree.h:942-960 `root()`, binary_tree.h:43-87 `left()`, `right()`: the node at the end of a path; `null_node_exception_t`
(`invalidNode`) if there is none. -/
def resolve (s : St α) : Ptr → List Bool → Res Nat
  | none, _ => .exc .invalidNode
  | some i, [] => .ok i
  | some i, b :: path => do
    let c ← cell s i
    resolve s (if b then c.right else c.left) path

/-- tree.h:145-163 `parent()` of node `i`. -/
def parentOf (s : St α) (i : Nat) : Res Nat := do
  let c ← cell s i
  match c.par with
  | none => .exc .invalidNode
  | some p => .ok p

/-- tree.h:94-107 `set_value`. -/
def setValue (s : St α) (i : Nat) (x : α) : Res (St α) := change s i fun c => { c with val := x }

/-- binary_tree.h:181-198 `*dst = std::move(*src)` for two nodes. -/
def moveNode (fuel : Nat) (s : St α) (dst src : Nat) : Res (St α) := do
  let s ← clearNode fuel s dst
  let c ← cell s src
  let s ← change s dst fun d => { d with left := c.left }
  let c ← cell s src
  let s ← change s dst fun d => { d with right := c.right }
  let s ← change s src fun c => { c with left := none, right := none }
  let s ← change s src fun c => { c with par := none }
  let d ← cell s dst
  let s ← (match d.left with
    | some l => change s l fun c => { c with par := some dst }
    | none => .ok s)
  let d ← cell s dst
  let s ← (match d.right with
    | some r => change s r fun c => { c with par := some dst }
    | none => .ok s)
  let c ← cell s src
  change s dst fun d => { d with val := c.val }

inductive BOut where
  | unit
  | bool (b : Bool)
  /-- `null_node_exception_t` was thrown and caught. -/
  | thrown
deriving DecidableEq, Repr

/-- What a program does with its trees and their nodes; `dir` 0 is left, 1 is right. -/
inductive BOp (α : Type) where
  | addRoot (k : Nat) (x : α)
  | addLeft (k : Nat) (p : List Bool) (x : α)
  | addRight (k : Nat) (p : List Bool) (x : α)
  | deleteChild (k : Nat) (p : List Bool) (dir : Nat)
  | swap (k : Nat) (p : List Bool) (dir : Nat)
  | setValue (k : Nat) (p : List Bool) (x : α)
  | clearNode (k : Nat) (p : List Bool)
  /-- `node (k, p) = node (j, q)` -/
  | assign (k : Nat) (p : List Bool) (j : Nat) (q : List Bool)
  /-- `node (k, p) = std::move(node (j, q))` -/
  | moveAssign (k : Nat) (p : List Bool) (j : Nat) (q : List Bool)
  /-- `clear()` and the destructor of tree `k` -/
  | clear (k : Nat)
  /-- assignment of tree `j` to tree `k`, or construction of `k` from `j` -/
  | copy (k j : Nat)
  | move (k j : Nat)
deriving DecidableEq, Repr

/-- Get a node and go on with it; the exception is caught. -/
def onNode (s : St α) (k : Nat) (p : List Bool) (f : Nat → Res (BOut × St α)) : Res (BOut × St α) :=
  match resolve s (s.roots k) p with
  | .ok i => f i
  | .exc _ => .ok (.thrown, s)
  | .ub => .ub

def bstep (dflt : α) (s : St α) : BOp α → Res (BOut × St α)
  | .addRoot k x => do let s ← Mem.addRoot s.fuel s k (.val x); .ok (.unit, s)
  | .addLeft k p x => onNode s k p fun i => do let (b, s) ← Mem.addLeft s i (.val x); .ok (.bool b, s)
  | .addRight k p x => onNode s k p fun i => do let (b, s) ← Mem.addRight s i (.val x); .ok (.bool b, s)
  | .deleteChild k p dir => onNode s k p fun i => do let (b, s) ← Mem.deleteChild s.fuel s i dir; .ok (.bool b, s)
  | .swap k p dir => onNode s k p fun i => do let s ← swapChild s i dir; .ok (.unit, s)
  | .setValue k p x => onNode s k p fun i => do let s ← Mem.setValue s i x; .ok (.unit, s)
  | .clearNode k p => onNode s k p fun i => do let s ← Mem.clearNode s.fuel s i; .ok (.unit, s)
  | .assign k p j q => onNode s j q fun src => onNode s k p fun dst => do
      let s ← copyNode dflt s.fuel s dst src
      .ok (.unit, s)
  | .moveAssign k p j q => onNode s j q fun src => onNode s k p fun dst => do
      let s ← moveNode s.fuel s dst src
      .ok (.unit, s)
  | .clear k => do let s ← deleteRoot s k; .ok (.unit, s)
  | .copy k j => do let s ← copyTree dflt s k j; .ok (.unit, s)
  | .move k j => .ok (.unit, moveTree s k j)

def brun (dflt : α) (s : St α) : List (BOp α) → Res (List BOut × St α)
  | [] => .ok ([], s)
  | op :: ops => do
    let (o, s) ← bstep dflt s op
    let (os, s) ← brun dflt s ops
    .ok (o :: os, s)

end Verif.Mem
