import Verif.NMem.Model
import Verif.Nary.Model

/-! Specification of programs over n-ary trees: every variable holds an immutable tree of values. -/

namespace Verif.NMem.Spec
open Nary (Slots Node)
variable {α β : Type}

/-- A tree or nothing: the value of the root and its slots. -/
abbrev Tree (β : Type) := Option (Node β)

/-- The inverse of `Slots.toList`. -/
def ofList : List (Option (Node β)) → Slots β
  | [] => .nil
  | none :: l => .null (ofList l)
  | some (b, k) :: l => .node b k (ofList l)

/-- The subtree in slot `p`, or nothing. -/
def slot (k : Slots β) (p : Nat) : Tree β := k.toList[p]?.join

/-- The subtree at a path. -/
def sub : Tree β → List Nat → Tree β
  | t, [] => t
  | none, _ :: _ => none
  | some (_, k), p :: path => sub (slot k p) path

/-- Replace the subtree at a path. -/
def put : Tree β → List Nat → Tree β → Tree β
  | _, [], u => u
  | none, _ :: _, _ => none
  | some (b, k), p :: path, u => some (b, ofList (k.toList.modify p fun t => put t path u))

/-- The exception when a node is asked for: `std::out_of_range` where the path leaves the slots, otherwise
`null_node_exception_t`. -/
def missing : Tree β → List Nat → Exc
  | none, _ => .invalidNode
  | some _, [] => .invalidNode
  | some (_, k), p :: path => if p < k.toList.length then missing (slot k p) path else .outOfRange

/-- What hangs at `p` in memory, read by following pointers; every node read is allocated. -/
inductive Looks (s : St α) : List Ptr → Slots α → Prop
  | nil : Looks s [] .nil
  | null {ps : List Ptr} {k : Slots α} : Looks s ps k → Looks s (none :: ps) (.null k)
  | node {i : Nat} {c : Cell α} {ps : List Ptr} {kids rest : Slots α} : s.mem i = some c → Looks s c.kids kids → Looks s ps rest →
      Looks s (some i :: ps) (.node c.val kids rest)

/-- What a variable holds: the tree as one slot. -/
def Holds (s : St α) (v : Var) (t : Tree α) : Prop := Looks s [s.vars v] (ofList [t])

/-- The node that is found by following `path` from `p`. -/
def follow (s : St α) : Ptr → List Nat → Ptr
  | none, _ => none
  | some i, [] => some i
  | some i, p :: path =>
    match s.mem i with
    | some c => follow s (c.kids[p]?.join) path
    | none => none

/-- Node `i` is in what the variable `v` holds. -/
def InVar (s : St α) (v : Var) (i : Nat) : Prop := ∃ path, follow s (s.vars v) path = some i

def setVar (S : Var → Tree β) (v : Var) (t : Tree β) : Var → Tree β := fun w => if w = v then t else S w

/-- Change the node at a location: `f` gets its value and slots. -/
def onNode (S : Var → Tree α) (l : Loc) (f : α → Slots α → NOut α × α × Slots α) : NOut α × (Var → Tree α) :=
  match sub (S l.var) l.path with
  | none => (.thrown (missing (S l.var) l.path), S)
  | some (x, k) => ((f x k).1, setVar S l.var (put (S l.var) l.path (some (f x k).2)))

/-- `l` with slot `pos` made to exist and to hold `t`. -/
def setSlot (l : List (Option (Node β))) (pos : Nat) (t : Tree β) : List (Option (Node β)) :=
  (l ++ List.replicate (pos + 1 - l.length) none).set pos t

/-- The meaning of the statements on values. -/
def nspec (max : Nat) (S : Var → Tree α) : NOp α → NOut α × (Var → Tree α)
  | .addRoot k x => (.unit, setVar S (.tree k) (some (x, .nil)))
  | .addChild l x => onNode S l fun v k =>
    if k.toList.length < max then (.bool true, v, ofList (k.toList ++ [some (x, .nil)])) else (.bool false, v, k)
  | .insertFirstNull l x => onNode S l fun v k =>
    if k.toList.findIdx (·.isNone) < k.toList.length then
      (.bool true, v, ofList (k.toList.set (k.toList.findIdx (·.isNone)) (some (x, .nil))))
    else if k.toList.length < max then (.bool true, v, ofList (k.toList ++ [some (x, .nil)])) else (.bool false, v, k)
  | .insertAt l pos x => onNode S l fun v k =>
    if pos < max ∧ slot k pos = none then (.bool true, v, ofList (setSlot k.toList pos (some (x, .nil)))) else (.bool false, v, k)
  | .replaceAt l pos x h =>
    match sub (S l.var) l.path with
    | none => (.thrown (missing (S l.var) l.path), S)
    | some (v, k) =>
      (.bool (slot k pos).isSome, setVar
        (setVar S l.var (put (S l.var) l.path (some (v, ofList (setSlot k.toList pos (some (x, .nil)))))))
        (.uptr h) (slot k pos))
  | .deleteChild l pos => onNode S l fun v k => (.bool (decide (pos < k.toList.length)), v, ofList (k.toList.eraseIdx pos))
  | .extractChild l pos h =>
    match sub (S l.var) l.path with
    | none => (.thrown (missing (S l.var) l.path), S)
    | some (v, k) =>
      (.bool (slot k pos).isSome, setVar
        (setVar S l.var (put (S l.var) l.path (some (v, ofList (k.toList.set pos none)))))
        (.uptr h) (slot k pos))
  | .setValue l x => onNode S l fun _ k => (.unit, x, k)
  | .swapValues l m =>
    match sub (S l.var) l.path, sub (S m.var) m.path with
    | none, _ => (.thrown (missing (S l.var) l.path), S)
    | some _, none => (.thrown (missing (S m.var) m.path), S)
    | some (x, _), some (y, _) => (.unit, (onNode (onNode S m fun _ k => (.unit, x, k)).2 l fun _ k => (.unit, y, k)).2)
  | .clearNode l => onNode S l fun v _ => (.unit, v, .nil)
  | .assign l m =>
    match sub (S m.var) m.path with
    | none => (.thrown (missing (S m.var) m.path), S)
    | some (x, k) => onNode S l fun _ _ => (.unit, x, k)
  | .moveAssign l m =>
    match sub (S m.var) m.path, sub (S l.var) l.path with
    | none, _ => (.thrown (missing (S m.var) m.path), S)
    | some _, none => (.thrown (missing (S l.var) l.path), S)
    | some (x, k), some _ => (.unit, (onNode (onNode S m fun v _ => (.unit, v, .nil)).2 l fun _ _ => (.unit, x, k)).2)
  | .get l => onNode S l fun v k => (.val v, v, k)
  | .childrenCount l => onNode S l fun v k => (.num (k.toList.countP (·.isSome)), v, k)
  | .hasChild l pos => onNode S l fun v k => (.bool (slot k pos).isSome, v, k)
  | .reset v => (.unit, setVar S v none)
  | .copy k j => (.unit, setVar S (.tree k) (S (.tree j)))
  | .move k j => (.unit, setVar (setVar S (.tree k) (S (.tree j))) (.tree j) none)
  | .moveUptr h g => (.unit, if h = g then S else setVar (setVar S (.uptr h) (S (.uptr g))) (.uptr g) none)

def nrunSpec (max : Nat) (S : Var → Tree α) : List (NOp α) → List (NOut α) × (Var → Tree α)
  | [] => ([], S)
  | op :: ops => ((nspec max S op).1 :: (nrunSpec max (nspec max S op).2 ops).1, (nrunSpec max (nspec max S op).2 ops).2)

/-- The node of a location. -/
def node (s : St α) (l : Loc) : Ptr := follow s (s.vars l.var) l.path

/-- The node, if there is one, has no children (it may have null slots). -/
def Childless (s : St α) (p : Ptr) : Prop := ∀ i c, p = some i → s.mem i = some c → ∀ q ∈ c.kids, q = none

/-- `m` is the node `l` or one below it. -/
def Below (l m : Loc) : Prop := l.var = m.var ∧ l.path <+: m.path

/-- Every statement of the program is allowed by `P` in the state where it is executed. -/
def Always (max : Nat) (dflt : α) (P : St α → NOp α → Prop) (s : St α) : List (NOp α) → Prop
  | [] => True
  | op :: ops => P s op ∧ ∀ o s', nstep max dflt s op = .ok (o, s') → Always max dflt P s' ops

/-- Nodes and trees with children are not copied, except to themselves or to nodes above; `replace_at` stays within the
maximum. -/
def Safe (max : Nat) (s : St α) : NOp α → Prop
  | .assign l m => Childless s (node s m) ∨ Below l m
  | .copy k j => k = j ∨ Childless s (s.vars (.tree j))
  | .replaceAt _ pos _ _ => pos < max
  | _ => True

/-- Nodes are not moved to themselves; trees are not copied to themselves, and empty ones not to others. -/
def Faithful (s : St α) : NOp α → Prop
  | .moveAssign l m => l ≠ m
  | .copy k j => k ≠ j ∧ (s.vars (.tree j) = none → s.vars (.tree k) = none)
  | _ => True

/-- The two nodes have the same parent or none. -/
def Siblings (l m : Loc) : Prop := (l.path = [] ∧ m.path = []) ∨ (l.path ≠ [] ∧ m.path ≠ [] ∧ l.var = m.var ∧ l.path.dropLast = m.path.dropLast)

/-- Nodes are assigned from childless siblings, or root from childless root. -/
def Local (s : St α) : NOp α → Prop
  | .assign l m | .moveAssign l m => l = m ∨ (Childless s (node s m) ∧ Siblings l m)
  | _ => True

/-- Nodes are assigned to childless ones, and not moved to nodes below, or one of the nodes does not exist; trees are assigned to
empty trees. -/
def Tidy (s : St α) : NOp α → Prop
  | .assign l m => node s l = none ∨ node s m = none ∨ l = m ∨ Childless s (node s l)
  | .moveAssign l m => node s l = none ∨ node s m = none ∨ (Childless s (node s l) ∧ (Below m l → l = m))
  | .copy k j => s.vars (.tree j) = none ∨ s.vars (.tree k) = none
  | .move k _ => s.vars (.tree k) = none
  | _ => True

end Verif.NMem.Spec
