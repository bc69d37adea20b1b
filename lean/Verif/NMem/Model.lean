import Verif.Common

/-!
Pointer-level model of programs over n-ary trees, `tree_t<T, tree_node_t<T, max>>` (structures/tree.h:42-226, 228-849, 873-1191), on a
memory of nodes.  (`Verif.Nary` models one node, the traversals and ownership on immutable trees; `Verif.Mem` models binary
trees on a memory.)

* A node lives at an address; addresses are never reused.  `delete` removes the node, and any access to a node that was
  deleted is UB.
* A program has tree objects and `std::unique_ptr` variables (for the results of `extract_child` and `replace_at`).  It names a
  node by a variable and the positions of the children to go through, as in `t.root().child(2).child(0)`.  It tests a
  `unique_ptr` before it uses it; exceptions of `root()` and `child()` are caught, and the program goes on.
* Recursion is bounded by fuel; running out of it is UB, so `ok` results include termination.
* Values of the element type are copied; a moved-from value keeps its value, as for the built-in types.  Neither the
  copy nor the move constructor of `tree_node_t` can be used: both need the copy constructor of `base_node_t`, which is deleted.
-/

namespace Verif.NMem
variable {α : Type}

abbrev Ptr := Option Nat

/-- tree.h:224-225 and 848. -/
structure Cell (α : Type) where
  par : Ptr
  val : α
  kids : List Ptr
deriving DecidableEq, Repr

/-- What owns nodes from outside: the `_root` member of a tree object (tree.h:1190), or a `unique_ptr` of the program. -/
inductive Var where
  | tree (k : Nat)
  | uptr (h : Nat)
deriving DecidableEq, Repr

structure St (α : Type) where
  mem : Nat → Option (Cell α)
  next : Nat
  vars : Var → Ptr

def St.empty : St α := ⟨fun _ => none, 0, fun _ => none⟩

def St.set (s : St α) (i : Nat) (c : Cell α) : St α := { s with mem := fun j => if j = i then some c else s.mem j }

def St.drop (s : St α) (i : Nat) : St α := { s with mem := fun j => if j = i then none else s.mem j }

def St.setVar (s : St α) (v : Var) (p : Ptr) : St α := { s with vars := fun w => if w = v then p else s.vars w }

/-- Enough fuel for any tree of distinct nodes. -/
def St.fuel (s : St α) : Nat := s.next + 1

/-- Read the node at address `i`. -/
def cell (s : St α) (i : Nat) : Res (Cell α) :=
  match s.mem i with
  | some c => .ok c
  | none => .ub

/-- Change the node at address `i`. -/
def change (s : St α) (i : Nat) (f : Cell α → Cell α) : Res (St α) :=
  match s.mem i with
  | some c => .ok (s.set i (f c))
  | none => .ub

/-- `new node_type_t{ value, parent }`, tree.h:255-257. -/
def alloc (s : St α) (par : Ptr) (v : α) : St α := { s.set s.next ⟨par, v, []⟩ with next := s.next + 1 }

/-! ### Nodes -/

/-- tree.h:460-462: `for (ptr : _children) if (ptr) delete ptr;`. -/
def deleteAll (d : St α → Nat → Res (St α)) (s : St α) : List Ptr → Res (St α)
  | [] => .ok s
  | none :: ps => deleteAll d s ps
  | some i :: ps => do
    let s ← d s i
    deleteAll d s ps

/-- `delete` of a node: the destructor, tree.h:294-296, calls `clear`, tree.h:459-464. -/
def deleteNode : Nat → St α → Nat → Res (St α)
  | 0, _, _ => .ub
  | fuel + 1, s, i => do
    let c ← cell s i
    let s ← deleteAll (deleteNode fuel) s c.kids
    let _ ← cell s i
    .ok (s.drop i)

/-- `delete` of a pointer that may be null. -/
def deletePtr (fuel : Nat) (s : St α) : Ptr → Res (St α)
  | none => .ok s
  | some i => deleteNode fuel s i

/-- tree.h:459-464 `clear`. -/
def clearNode (s : St α) (i : Nat) : Res (St α) := do
  let c ← cell s i
  let s ← deleteAll (deleteNode s.fuel) s c.kids
  change s i fun c => { c with kids := [] }

/-- tree.h:305-311 `add_child`. -/
def addChild (max : Nat) (s : St α) (i : Nat) (x : α) : Res (Bool × St α) := do
  let c ← cell s i
  if c.kids.length < max then do
    let j := s.next
    let s := alloc s (some i) x
    let s ← change s i fun c => { c with kids := c.kids ++ [some j] }
    .ok (true, s)
  else .ok (false, s)

/-- tree.h:320-330 `insert_at_first_null`. -/
def insertFirstNull (max : Nat) (s : St α) (i : Nat) (x : α) : Res (Bool × St α) := do
  let c ← cell s i
  let k := c.kids.findIdx (·.isNone)
  if k < c.kids.length then do
    let j := s.next
    let s := alloc s (some i) x
    let s ← change s i fun c => { c with kids := c.kids.set k (some j) }
    .ok (true, s)
  else addChild max s i x

/-- `std::vector::resize(n, nullptr)`. -/
def resize (l : List Ptr) (n : Nat) : List Ptr := l.take n ++ List.replicate (n - l.length) none

/-- tree.h:347-363 `insert_at`. -/
def insertAt (max : Nat) (s : St α) (i pos : Nat) (x : α) : Res (Bool × St α) := do
  let c ← cell s i
  if pos < max then do
    if pos < c.kids.length then do
      if c.kids[pos]? = some none then do
        let j := s.next
        let s := alloc s (some i) x
        let s ← change s i fun c => { c with kids := c.kids.set pos (some j) }
        .ok (true, s)
      else .ok (false, s)
    else do
      let s ← change s i fun c => { c with kids := resize c.kids (pos + 1) }
      let j := s.next
      let s := alloc s (some i) x
      let s ← change s i fun c => { c with kids := c.kids.set pos (some j) }
      .ok (true, s)
  else .ok (false, s)

/-- The first half of tree.h:433-443 `extract_child` and of 385-391 in `replace_at`: take the child out of the slot. -/
def takeChild (s : St α) (i pos : Nat) : Res (Ptr × St α) := do
  let c ← cell s i
  match c.kids[pos]? with
  | some (some r) => do
    -- `set_parent(nullptr)`, tree.h:219-222
    let s ← change s r fun c => { c with par := none }
    let s ← change s i fun c => { c with kids := c.kids.set pos none }
    .ok (some r, s)
  | _ => .ok (none, s)

/-- tree.h:381-399 `replace_at`; the last write is not checked. -/
def replaceAt (max : Nat) (s : St α) (i pos : Nat) (x : α) : Res (Ptr × St α) := do
  let c ← cell s i
  let (r, s) ← (if pos < max then
      (if pos < c.kids.length then takeChild s i pos
      else do
        let s ← change s i fun c => { c with kids := resize c.kids (pos + 1) }
        .ok (none, s))
    else .ok (none, s))
  let j := s.next
  let s := alloc s (some i) x
  let c ← cell s i
  if pos < c.kids.length then do
    let s ← change s i fun c => { c with kids := c.kids.set pos (some j) }
    .ok (r, s)
  else .ub

/-- tree.h:409-419 `delete_child`. -/
def deleteChild (s : St α) (i pos : Nat) : Res (Bool × St α) := do
  let c ← cell s i
  match c.kids[pos]? with
  | none => .ok (false, s)
  | some p => do
    let s ← deletePtr s.fuel s p
    let s ← change s i fun c => { c with kids := c.kids.eraseIdx pos }
    .ok (true, s)

/-- tree.h:433-443 `extract_child`. -/
def extractChild (s : St α) (i pos : Nat) : Res (Ptr × St α) := takeChild s i pos

/-- tree.h:290 and 84, `operator=(const tree_node_t&) = default`: `_parent`, the value and the vector of pointers are copied. -/
def assignNode (s : St α) (dst src : Nat) : Res (St α) := do
  let c ← cell s src
  change s dst fun _ => c

/-- tree.h:291 and 85, `operator=(tree_node_t&&) = default`: `_parent` is copied, the value and the vector are moved.  A vector
that is moved from is empty, also when it is moved to itself (as in libstdc++). -/
def moveNode (s : St α) (dst src : Nat) : Res (St α) := do
  let c ← cell s src
  let s ← change s dst fun d => { d with par := c.par }
  let s ← change s dst fun d => { d with val := c.val }
  let c ← cell s src
  let s ← change s dst fun d => { d with kids := c.kids }
  change s src fun c => { c with kids := [] }

/-- tree.h:94-106 `set_value`. -/
def setValue (s : St α) (i : Nat) (x : α) : Res (St α) := change s i fun c => { c with val := x }

/-- tree.h:113-130 `swap_move` and `swap`. -/
def swapValues (s : St α) (i j : Nat) : Res (St α) := do
  let tmp ← cell s j
  let c ← cell s i
  let s ← change s j fun d => { d with val := c.val }
  change s i fun d => { d with val := tmp.val }

/-- tree.h:146-165 `parent()`. -/
def parentOf (s : St α) (i : Nat) : Res Nat := do
  let c ← cell s i
  match c.par with
  | none => .exc .invalidNode
  | some p => .ok p

/-! ### Trees and variables -/

/-- tree.h:1182-1188 `delete_root`; also `clear` (1052-1055) and the destructor (880-883).  For a `unique_ptr`, its `reset()`. -/
def reset (s : St α) (v : Var) : Res (St α) := do
  let s ← deletePtr s.fuel s (s.vars v)
  .ok (s.setVar v none)

/-- `unique_ptr` move assignment from a pointer that was released: the new pointer is stored, then the old node is deleted. -/
def store (s : St α) (h : Nat) (p : Ptr) : Res (St α) :=
  deletePtr s.fuel (s.setVar (.uptr h) p) (s.vars (.uptr h))

/-- tree.h:1033-1038 `add_root`; also the constructor from a value (889-890). -/
def addRoot (s : St α) (k : Nat) (x : α) : Res (St α) := do
  let s ← reset s (.tree k)
  .ok ((alloc s none x).setVar (.tree k) (some s.next))

/-- tree.h:916-923 `operator=(const tree_t&)`; also the copy constructor (898-900), of an empty tree. -/
def copyTree (dflt : α) (s : St α) (k j : Nat) : Res (St α) :=
  match s.vars (.tree j) with
  | none => .ok s
  | some _ => do
    let r := s.next
    let s := (alloc s none dflt).setVar (.tree k) (some r)
    match s.vars (.tree j) with
    | some src => assignNode s r src
    | none => .ub

/-- tree.h:930-935 `operator=(tree_t&&)`; also the move constructor (907-909), of an empty tree. -/
def moveTree (s : St α) (k j : Nat) : St α :=
  (s.setVar (.tree k) (s.vars (.tree j))).setVar (.tree j) none

/-- `h = std::move(g)` for two `unique_ptr`s: `reset(g.release())`. -/
def moveUptr (s : St α) (h g : Nat) : Res (St α) :=
  store (s.setVar (.uptr g) none) h (s.vars (.uptr g))

/-! ### Programs -/

/-- tree.h:942-961 `root()`, 511-526 `child`: the node at the end of a path. -/
def resolve (s : St α) : Ptr → List Nat → Res Nat
  | none, _ => .exc .invalidNode
  | some i, [] => .ok i
  | some i, p :: path => do
    let c ← cell s i
    match c.kids[p]? with
    | none => .exc .outOfRange
    | some q => resolve s q path

/-- A node of the program: where to start, and the children to go through. -/
structure Loc where
  var : Var
  path : List Nat
deriving DecidableEq, Repr

inductive NOut (α : Type) where
  | unit
  | bool (b : Bool)
  | num (n : Nat)
  | val (x : α)
  /-- An exception was thrown and caught. -/
  | thrown (e : Exc)
deriving DecidableEq, Repr

/-- What a program does. -/
inductive NOp (α : Type) where
  | addRoot (k : Nat) (x : α)
  | addChild (l : Loc) (x : α)
  | insertFirstNull (l : Loc) (x : α)
  | insertAt (l : Loc) (pos : Nat) (x : α)
  /-- `h = node.replace_at(pos, x)` -/
  | replaceAt (l : Loc) (pos : Nat) (x : α) (h : Nat)
  | deleteChild (l : Loc) (pos : Nat)
  /-- `h = node.extract_child(pos)` -/
  | extractChild (l : Loc) (pos : Nat) (h : Nat)
  | setValue (l : Loc) (x : α)
  | swapValues (l m : Loc)
  | clearNode (l : Loc)
  /-- `l = m` -/
  | assign (l m : Loc)
  /-- `l = std::move(m)` -/
  | moveAssign (l m : Loc)
  | get (l : Loc)
  | childrenCount (l : Loc)
  | hasChild (l : Loc) (pos : Nat)
  /-- `clear()` and the destructor of a tree, `reset()` and the destructor of a `unique_ptr` -/
  | reset (v : Var)
  /-- assignment of tree `j` to tree `k`, or construction of `k` from `j` -/
  | copy (k j : Nat)
  | move (k j : Nat)
  | moveUptr (h g : Nat)
deriving DecidableEq, Repr

/-- Get a node and go on with it; the exception is caught. -/
def onNode (s : St α) (l : Loc) (f : Nat → Res (NOut α × St α)) : Res (NOut α × St α) :=
  match resolve s (s.vars l.var) l.path with
  | .ok i => f i
  | .exc e => .ok (.thrown e, s)
  | .ub => .ub

/-- One statement; `max` is `max_node_size`, `dflt` the value of a default-constructed node. -/
def nstep (max : Nat) (dflt : α) (s : St α) : NOp α → Res (NOut α × St α)
  | .addRoot k x => do let s ← addRoot s k x; .ok (.unit, s)
  | .addChild l x => onNode s l fun i => do let (b, s) ← addChild max s i x; .ok (.bool b, s)
  | .insertFirstNull l x => onNode s l fun i => do let (b, s) ← insertFirstNull max s i x; .ok (.bool b, s)
  | .insertAt l pos x => onNode s l fun i => do let (b, s) ← insertAt max s i pos x; .ok (.bool b, s)
  | .replaceAt l pos x h => onNode s l fun i => do
      let (p, s) ← replaceAt max s i pos x
      let s ← store s h p
      .ok (.bool p.isSome, s)
  | .deleteChild l pos => onNode s l fun i => do let (b, s) ← deleteChild s i pos; .ok (.bool b, s)
  | .extractChild l pos h => onNode s l fun i => do
      let (p, s) ← extractChild s i pos
      let s ← store s h p
      .ok (.bool p.isSome, s)
  | .setValue l x => onNode s l fun i => do let s ← setValue s i x; .ok (.unit, s)
  | .swapValues l m => onNode s l fun i => onNode s m fun j => do let s ← swapValues s i j; .ok (.unit, s)
  | .clearNode l => onNode s l fun i => do let s ← clearNode s i; .ok (.unit, s)
  | .assign l m => onNode s m fun src => onNode s l fun dst => do let s ← assignNode s dst src; .ok (.unit, s)
  | .moveAssign l m => onNode s m fun src => onNode s l fun dst => do let s ← moveNode s dst src; .ok (.unit, s)
  | .get l => onNode s l fun i => do let c ← cell s i; .ok (.val c.val, s)
  | .childrenCount l => onNode s l fun i => do
      -- tree.h:470-476
      let c ← cell s i
      .ok (.num (c.kids.length - c.kids.countP (·.isNone)), s)
  | .hasChild l pos => onNode s l fun i => do
      -- tree.h:450-453
      let c ← cell s i
      .ok (.bool (decide (pos < c.kids.length) && (c.kids[pos]?.join).isSome), s)
  | .reset v => do let s ← reset s v; .ok (.unit, s)
  | .copy k j => do let s ← copyTree dflt s k j; .ok (.unit, s)
  | .move k j => .ok (.unit, moveTree s k j)
  | .moveUptr h g => do let s ← moveUptr s h g; .ok (.unit, s)

def nrun (max : Nat) (dflt : α) (s : St α) : List (NOp α) → Res (List (NOut α) × St α)
  | [] => .ok ([], s)
  | op :: ops => do
    let (o, s) ← nstep max dflt s op
    let (os, s) ← nrun max dflt s ops
    .ok (o :: os, s)

end Verif.NMem
