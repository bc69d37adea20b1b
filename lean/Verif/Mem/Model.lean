import Verif.Avl.Model

/-!
Pointer-level model of `structures/binary_tree.h` and `structures/tree.h`: `binary_node_t`, `tree_t<T, binary_node_t<T>>`
and `avl_tree_t`, on a memory of nodes.  (`Verif.Avl` models the same functions on immutable trees; the theorems of
`Verif.Mem` connect the two.)

* A node lives at an address; addresses are never reused.  `delete` removes the node, and any access through a null
  pointer or to a node that was deleted is UB.
* `node_type_t*&` parameters are `Slot`s: the `_root` member of a tree object or the `_left`/`_right` member of a node.
* `const T&` parameters are `Ref`s: an object of the caller, or the value inside a node (`root().get()`, `left_most().get()`).
* Recursion is bounded by fuel; running out of it is UB, so `ok` results include termination.
* `value > x` is `x < value`; as in `Verif.Avl`, heights are unbounded naturals.
-/

namespace Verif.Mem
variable {α : Type}

abbrev Ptr := Option Nat

/-- tree.h:224-225 and binary_tree.h:433-435. -/
structure Cell (α : Type) where
  par : Ptr
  val : α
  h : Nat
  left : Ptr
  right : Ptr
deriving DecidableEq, Repr

/-- The memory: nodes by address, the next address, and the `_root` members of the tree objects (tree.h:1190). -/
structure St (α : Type) where
  mem : Nat → Option (Cell α)
  next : Nat
  roots : Nat → Ptr

def St.empty : St α := ⟨fun _ => none, 0, fun _ => none⟩

/-- Write a node. -/
def St.set (s : St α) (i : Nat) (c : Cell α) : St α := { s with mem := fun j => if j = i then some c else s.mem j }

/-- Release a node. -/
def St.drop (s : St α) (i : Nat) : St α := { s with mem := fun j => if j = i then none else s.mem j }

def St.setRoot (s : St α) (k : Nat) (p : Ptr) : St α := { s with roots := fun j => if j = k then p else s.roots j }

/-- Read the node at address `i`. -/
def cell (s : St α) (i : Nat) : Res (Cell α) :=
  match s.mem i with
  | some c => .ok c
  | none => .ub

/-- Change the node at address `i`. -/
def change (s : St α) (i : Nat) (f : Cell α → Cell α) : Res (St α) :=
  match s.mem i with
  | some c => .ok (s.set i (f c))
  | none => .ub

/-- `new binary_node_t{ value, parent }` (tree.h:58-60 and the member initialisers). -/
def alloc (s : St α) (par : Ptr) (v : α) : Nat × St α :=
  (s.next, { s.set s.next ⟨par, v, 1, none, none⟩ with next := s.next + 1 })

inductive Slot where
  | root (k : Nat)
  | left (i : Nat)
  | right (i : Nat)
deriving DecidableEq, Repr

def readSlot (s : St α) : Slot → Res Ptr
  | .root k => .ok (s.roots k)
  | .left i => do let c ← cell s i; .ok c.left
  | .right i => do let c ← cell s i; .ok c.right

def writeSlot (s : St α) (slot : Slot) (p : Ptr) : Res (St α) :=
  match slot with
  | .root k => .ok (s.setRoot k p)
  | .left i => change s i fun c => { c with left := p }
  | .right i => change s i fun c => { c with right := p }

/-- A `const T&` argument. -/
inductive Ref (α : Type) where
  | val (x : α)
  | node (i : Nat)
deriving DecidableEq, Repr

def deref (s : St α) : Ref α → Res α
  | .val x => .ok x
  | .node i => do let c ← cell s i; .ok c.val

/-! ### Nodes -/

/-- binary_tree.h:932-935 `height`. -/
def height (s : St α) : Ptr → Res Nat
  | none => .ok 0
  | some i => do let c ← cell s i; .ok c.h

/-- binary_tree.h:203-212 destructor and `clear`, 262-276 `delete_child`: children first, then the node. -/
def deleteNode : Nat → St α → Nat → Res (St α)
  | 0, _, _ => .ub
  | fuel + 1, s, i => do
    let c ← cell s i
    let s ← (match c.left with
      | some l => do
        let s ← deleteNode fuel s l
        change s i fun c => { c with left := none }
      | none => .ok s)
    let c ← cell s i
    let s ← (match c.right with
      | some r => do
        let s ← deleteNode fuel s r
        change s i fun c => { c with right := none }
      | none => .ok s)
    let _ ← cell s i
    .ok (s.drop i)

/-- binary_tree.h:221-227 `add_left`. -/
def addLeft (s : St α) (i : Nat) (ref : Ref α) : Res (Bool × St α) := do
  let c ← cell s i
  if c.left = none then do
    let x ← deref s ref
    let (j, s) := alloc s (some i) x
    let s ← change s i fun c => { c with left := some j }
    .ok (true, s)
  else .ok (false, s)

/-- binary_tree.h:237-243 `add_right`. -/
def addRight (s : St α) (i : Nat) (ref : Ref α) : Res (Bool × St α) := do
  let c ← cell s i
  if c.right = none then do
    let x ← deref s ref
    let (j, s) := alloc s (some i) x
    let s ← change s i fun c => { c with right := some j }
    .ok (true, s)
  else .ok (false, s)

/-- binary_tree.h:262-276 `delete_child(direction)`; `dir` 0 is left, 1 is right, any other value converted from an index
(l.251-255) deletes nothing. -/
def deleteChild (fuel : Nat) (s : St α) (i : Nat) (dir : Nat) : Res (Bool × St α) := do
  let c ← cell s i
  match dir, c.left, c.right with
  | 0, some l, _ => do
    let s ← deleteNode fuel s l
    let s ← change s i fun c => { c with left := none }
    .ok (true, s)
  | 1, _, some r => do
    let s ← deleteNode fuel s r
    let s ← change s i fun c => { c with right := none }
    .ok (true, s)
  | _, _, _ => .ok (false, s)

/-- tree.h:125-130 `swap`: exchanges the values of two nodes by copying. -/
def swapValues (s : St α) (i j : Nat) : Res (St α) := do
  let cj ← cell s j
  let tmp := cj.val
  let ci ← cell s i
  let s ← change s j fun c => { c with val := ci.val }
  change s i fun c => { c with val := tmp }

/-- binary_tree.h:283-299 `swap(direction)`. -/
def swapChild (s : St α) (i : Nat) (dir : Nat) : Res (St α) := do
  let c ← cell s i
  match dir, c.left, c.right with
  | 0, some l, _ => swapValues s i l
  | 1, _, some r => swapValues s i r
  | _, _, _ => .ok s

/-! ### AVL tree -/

/-- binary_tree.h:942-955 `rotate_right`. -/
def rotateRight (s : St α) : Ptr → Res (Ptr × St α)
  | none => .ok (none, s)
  | some o => do
    let c ← cell s o
    match c.left with
    | none => .ok (some o, s)
    | some hd => do
      let hc ← cell s hd
      let s ← change s o fun c => { c with left := hc.right }
      let s ← change s hd fun c => { c with right := some o }
      let c ← cell s o
      let s ← change s hd fun hc => { hc with par := c.par }
      let s ← change s o fun c => { c with par := some hd }
      let c ← cell s o
      let a ← height s c.left
      let b ← height s c.right
      let s ← change s o fun c => { c with h := max a b + 1 }
      let hc ← cell s hd
      let a ← height s hc.left
      let c ← cell s o
      let s ← change s hd fun hc => { hc with h := max a c.h + 1 }
      .ok (some hd, s)

/-- binary_tree.h:962-975 `rotate_left`. -/
def rotateLeft (s : St α) : Ptr → Res (Ptr × St α)
  | none => .ok (none, s)
  | some o => do
    let c ← cell s o
    match c.right with
    | none => .ok (some o, s)
    | some hd => do
      let hc ← cell s hd
      let s ← change s o fun c => { c with right := hc.left }
      let s ← change s hd fun c => { c with left := some o }
      let c ← cell s o
      let s ← change s hd fun hc => { hc with par := c.par }
      let s ← change s o fun c => { c with par := some hd }
      let c ← cell s o
      let a ← height s c.left
      let b ← height s c.right
      let s ← change s o fun c => { c with h := max a b + 1 }
      let hc ← cell s hd
      let a ← height s hc.right
      let c ← cell s o
      let s ← change s hd fun hc => { hc with h := max a c.h + 1 }
      .ok (some hd, s)

/-- binary_tree.h:983-987 `double_rotate_left`. -/
def doubleRotateLeft (s : St α) (i : Nat) : Res (Ptr × St α) := do
  let c ← cell s i
  let (p, s) ← rotateRight s c.right
  let s ← change s i fun c => { c with right := p }
  rotateLeft s (some i)

/-- binary_tree.h:995-999 `double_rotate_right`. -/
def doubleRotateRight (s : St α) (i : Nat) : Res (Ptr × St α) := do
  let c ← cell s i
  let (p, s) ← rotateLeft s c.left
  let s ← change s i fun c => { c with left := p }
  rotateRight s (some i)

/-- binary_tree.h:817-843 `rotate_on_remove_if_needed(father)`; the result is the new value of the reference `father`. -/
def rotateOnRemove (s : St α) (i : Nat) : Res (Ptr × St α) := do
  let c ← cell s i
  let a ← height s c.left
  let b ← height s c.right
  let s ← change s i fun c => { c with h := max a b + 1 }
  let c ← cell s i
  let a ← height s c.left
  let b ← height s c.right
  if a = b + 2 then
    match c.left with
    | none => .ub
    | some l => do
      let lc ← cell s l
      let x ← height s lc.left
      let y ← height s lc.right
      if x = y + 1 then rotateRight s (some i) else doubleRotateRight s i
  else if b = a + 2 then
    match c.right with
    | none => .ub
    | some r => do
      let rc ← cell s r
      let x ← height s rc.right
      let y ← height s rc.left
      if x = y + 1 then rotateLeft s (some i) else doubleRotateLeft s i
  else .ok (some i, s)

/-- binary_tree.h:1007-1009 `leftmost`. -/
def leftmost : Nat → St α → Ptr → Res Nat
  | 0, _, _ => .ub
  | _ + 1, _, none => .ub
  | fuel + 1, s, some i => do
    let c ← cell s i
    match c.left with
    | some _ => leftmost fuel s c.left
    | none => .ok i

/-- binary_tree.h:1017-1019 `rightmost`. -/
def rightmost : Nat → St α → Ptr → Res Nat
  | 0, _, _ => .ub
  | _ + 1, _, none => .ub
  | fuel + 1, s, some i => do
    let c ← cell s i
    match c.right with
    | some _ => rightmost fuel s c.right
    | none => .ok i

variable [LinearOrder α]

/-- binary_tree.h:788-808 `rotate_if_needed(father, value)`; the result is the new value of the reference `father`. -/
def rotateIfNeeded (s : St α) (i : Nat) (ref : Ref α) : Res (Ptr × St α) := do
  let c ← cell s i
  let a ← height s c.left
  let b ← height s c.right
  let s ← change s i fun c => { c with h := max a b + 1 }
  let c ← cell s i
  let a ← height s c.left
  let b ← height s c.right
  if a = b + 2 then
    match c.left with
    | none => .ub
    | some l => do
      let lc ← cell s l
      let x ← deref s ref
      if x < lc.val then rotateRight s (some i) else doubleRotateRight s i
  else if b = a + 2 then
    match c.right with
    | none => .ub
    | some r => do
      let rc ← cell s r
      let x ← deref s ref
      if rc.val < x then rotateLeft s (some i) else doubleRotateLeft s i
  else .ok (some i, s)

/-- tree.h:1033-1038 `add_root` on tree object `k`, with `delete_root` (1182-1188). -/
def addRoot (fuel : Nat) (s : St α) (k : Nat) (ref : Ref α) : Res (St α) := do
  let s ← (match s.roots k with
    | some r => do
      let s ← deleteNode fuel s r
      .ok (s.setRoot k none)
    | none => .ok s)
  let x ← deref s ref
  let (j, s) := alloc s none x
  .ok (s.setRoot k (some j))

/-- binary_tree.h:853-881 `insert(node, value, inserted)` with 753-779 `insert_left`, `insert_right`, on tree object `k`;
`n` is `_number_of_elements`.  Returns `inserted` (true on entry) and the counter. -/
def insert (dups : Bool) (k : Nat) (ref : Ref α) : Nat → St α → Slot → Nat → Res (Bool × Nat × St α)
  | 0, _, _, _ => .ub
  | fuel + 1, s, slot, n => do
    let node ← readSlot s slot
    match node with
    | some i => do
      let c ← cell s i
      let x ← deref s ref
      let (inserted, n, s) ←
        (if x < c.val then do
          let c ← cell s i
          match c.left with
          | some _ => insert dups k ref fuel s (.left i) n
          | none => do
            let (_, s) ← addLeft s i ref
            .ok (true, (n + 1) % W, s)
        else if c.val < x ∨ dups = true then do
          let c ← cell s i
          match c.right with
          | some _ => insert dups k ref fuel s (.right i) n
          | none => do
            let (_, s) ← addRight s i ref
            .ok (true, (n + 1) % W, s)
        else .ok (false, n, s))
      let (p, s) ← (if inserted then rotateIfNeeded s i ref else .ok (some i, s))
      let s ← writeSlot s slot p
      .ok (inserted, n, s)
    | none => do
      let s ← addRoot fuel s k ref
      match s.roots k with
      | none => .ub
      | some i => do
        let (p, s) ← rotateIfNeeded s i ref
        let s ← writeSlot s slot p
        .ok (true, (n + 1) % W, s)

/-- binary_tree.h:891-925 `remove(node, value, removed)`.  `*temp` is converted to a temporary `T`, once for `set_value` and
once for the recursive call.  Returns `removed` (false on entry) and the counter. -/
def remove : Nat → St α → Slot → Ref α → Nat → Res (Bool × Nat × St α)
  | 0, _, _, _, _ => .ub
  | fuel + 1, s, slot, ref, n => do
    let node ← readSlot s slot
    match node with
    | none => .ok (false, n, s)
    | some i => do
      let c ← cell s i
      let x ← deref s ref
      let (removed, n, s) ←
        (if x < c.val then remove fuel s (.left i) ref n
        else if c.val < x then remove fuel s (.right i) ref n
        else if c.left ≠ none ∧ c.right ≠ none then do
          let temp ← leftmost fuel s c.right
          let tc ← cell s temp
          let s ← change s i fun c => { c with val := tc.val }
          let tc ← cell s temp
          remove fuel s (.right i) (.val tc.val) n
        else do
          let child := if c.left ≠ none then c.left else c.right
          let s ← writeSlot s slot child
          let s ← (match child with
            | some ch => do
              let s ← change s i fun c => { c with left := none, right := none }
              let tc ← cell s i
              change s ch fun c => { c with par := tc.par }
            | none => .ok s)
          let s ← deleteNode fuel s i
          .ok (true, (n + W - 1) % W, s))
      let node ← readSlot s slot
      match node with
      | none => .ok (removed, n, s)
      | some j => do
        let (p, s) ← rotateOnRemove s j
        let s ← writeSlot s slot p
        .ok (removed, n, s)

/-- binary_tree.h:728-745 `contains(node, value)`. -/
def contains : Nat → St α → Nat → Ref α → Res Bool
  | 0, _, _, _ => .ub
  | fuel + 1, s, i, ref => do
    let c ← cell s i
    let x ← deref s ref
    if x < c.val then
      match c.left with
      | some l => contains fuel s l ref
      | none => .ok false
    else if c.val < x then
      match c.right with
      | some r => contains fuel s r ref
      | none => .ok false
    else .ok (decide (x = c.val))

/-! ### Calls on a tree object -/

/-- binary_tree.h:1027-1028; the memory holds the `_root` of the object. -/
structure Obj where
  dups : Bool
  size : Nat
deriving DecidableEq, Repr

/-- A recursion visits a node once, so the number of addresses in use bounds its depth. -/
def St.fuel (s : St α) : Nat := s.next + 1

/-- tree.h:1052-1055 and 1182-1188 `clear`/`delete_root`, the destructor (880-883). -/
def deleteRoot (s : St α) (k : Nat) : Res (St α) :=
  match s.roots k with
  | some r => do
    let s ← deleteNode s.fuel s r
    .ok (s.setRoot k none)
  | none => .ok s

/-- binary_tree.h:480-484 `insert`. -/
def callInsert (s : St α) (k : Nat) (o : Obj) (ref : Ref α) : Res (Bool × Obj × St α) := do
  let (b, n, s) ← insert o.dups k ref s.fuel s (.root k) o.size
  .ok (b, { o with size := n }, s)

/-- binary_tree.h:492-496 `remove`. -/
def callRemove (s : St α) (k : Nat) (o : Obj) (ref : Ref α) : Res (Bool × Obj × St α) := do
  let (b, n, s) ← remove s.fuel s (.root k) ref o.size
  .ok (b, { o with size := n }, s)

/-- binary_tree.h:505-511 `remove_all`; UB when the fuel does not suffice. -/
def callRemoveAll : Nat → St α → Nat → Obj → Ref α → Nat → Res (Nat × Obj × St α)
  | 0, _, _, _, _, _ => .ub
  | fuel + 1, s, k, o, ref, cnt => do
    let (b, o, s) ← callRemove s k o ref
    if b then callRemoveAll fuel s k o ref (cnt + 1) else .ok (cnt, o, s)

/-- binary_tree.h:546-548 `contains`. -/
def callContains (s : St α) (k : Nat) (ref : Ref α) : Res Bool :=
  match s.roots k with
  | some r => contains s.fuel s r ref
  | none => .ok false

/-- binary_tree.h:610-613 `clear`. -/
def callClear (s : St α) (k : Nat) (o : Obj) : Res (Obj × St α) := do
  let s ← deleteRoot s k
  .ok ({ o with size := 0 }, s)

/-- One mutating call with arguments passed by value. -/
def step (s : St α) (k : Nat) (o : Obj) : Avl.Op α → Res (Avl.Out × Obj × St α)
  | .insert x => do let (b, o, s) ← callInsert s k o (.val x); .ok (.bool b, o, s)
  | .remove x => do let (b, o, s) ← callRemove s k o (.val x); .ok (.bool b, o, s)
  | .removeAll x => do let (c, o, s) ← callRemoveAll s.fuel s k o (.val x) 0; .ok (.count c, o, s)
  | .clear => do let (o, s) ← callClear s k o; .ok (.unit, o, s)
  | .enableDuplicates => .ok (.unit, { o with dups := true }, s)
  | .disableDuplicates => .ok (.unit, { o with dups := false }, s)

/-- A history of calls. -/
def run (s : St α) (k : Nat) (o : Obj) : List (Avl.Op α) → Res (List Avl.Out × Obj × St α)
  | [] => .ok ([], o, s)
  | op :: ops => do
    let (out, o, s) ← step s k o op
    let (outs, o, s) ← run s k o ops
    .ok (out :: outs, o, s)

/-! ### Assignment, several tree objects -/

/-- binary_tree.h:206-212 `clear` on node `i`. -/
def clearNode (fuel : Nat) (s : St α) (i : Nat) : Res (St α) := do
  let (_, s) ← deleteChild fuel s i 0
  let (_, s) ← deleteChild fuel s i 1
  .ok s

/-- binary_tree.h:155-171 `*dst = *src` for two nodes; `dflt` is the value in a `new binary_node_t()` (tree.h:49-52). -/
def copyNode (dflt : α) : Nat → St α → Nat → Nat → Res (St α)
  | 0, _, _, _ => .ub
  | fuel + 1, s, dst, src => do
    let s ← clearNode fuel s dst
    let c ← cell s src
    let s ← (match c.left with
      | none => .ok s
      | some _ => do
        let (j, s) := alloc s none dflt
        let s ← change s dst fun d => { d with left := some j }
        let c ← cell s src
        match c.left with
        | none => .exc .invalidNode
        | some l => do
          let s ← copyNode dflt fuel s j l
          let d ← cell s dst
          match d.left with
          | none => .ub
          | some j => change s j fun k => { k with par := some dst })
    let c ← cell s src
    let s ← (match c.right with
      | none => .ok s
      | some _ => do
        let (j, s) := alloc s none dflt
        let s ← change s dst fun d => { d with right := some j }
        let c ← cell s src
        match c.right with
        | none => .exc .invalidNode
        | some r => do
          let s ← copyNode dflt fuel s j r
          let d ← cell s dst
          match d.right with
          | none => .ub
          | some j => change s j fun k => { k with par := some dst })
    let c ← cell s src
    change s dst fun d => { d with val := c.val }

/-- tree.h:917-923 `*k = *j` for two tree objects (and the copy constructor, 898-900). -/
def copyTree (dflt : α) (s : St α) (k j : Nat) : Res (St α) :=
  match s.roots j with
  | none => .ok s
  | some _ => do
    let fuel := s.fuel
    let (i, s) := alloc s none dflt
    let s := s.setRoot k (some i)
    match s.roots j with
    | none => .exc .invalidNode
    | some src => copyNode dflt fuel s i src

/-- tree.h:931-935 `*k = std::move(*j)` (and the move constructor, 907-909). -/
def moveTree (s : St α) (k j : Nat) : St α := (s.setRoot k (s.roots j)).setRoot j none

/-- A program with any number of AVL tree objects. -/
structure World (α : Type) where
  s : St α
  obj : Nat → Obj

def World.init : World α := ⟨St.empty, fun _ => ⟨false, 0⟩⟩

def World.setObj (w : World α) (k : Nat) (o : Obj) : World α := { w with obj := fun j => if j = k then o else w.obj j }

/-- What a program can do: call a member function of tree `k`, copy or move tree `j` to `k` (assignment; a constructor if
`k` is new), destroy tree `k`.  Every tree exists from the start, empty; a destroyed one may be used again. -/
inductive WOp (α : Type) where
  | call (k : Nat) (op : Avl.Op α)
  | copy (k j : Nat)
  | move (k j : Nat)
  | destroy (k : Nat)
deriving DecidableEq, Repr

/-- The two members of `avl_tree_t` are copied by the implicit assignments and constructors (binary_tree.h:1027-1028). -/
def World.step (dflt : α) (w : World α) : WOp α → Res (Option Avl.Out × World α)
  | .call k op => do
    let (out, o, s) ← Mem.step w.s k (w.obj k) op
    .ok (some out, { w with s := s }.setObj k o)
  | .copy k j => do
    let s ← copyTree dflt w.s k j
    .ok (none, { w with s := s }.setObj k (w.obj j))
  | .move k j => .ok (none, { w with s := moveTree w.s k j }.setObj k (w.obj j))
  | .destroy k => do
    let s ← deleteRoot w.s k
    .ok (none, { w with s := s }.setObj k ⟨false, 0⟩)

def World.run (dflt : α) (w : World α) : List (WOp α) → Res (List (Option Avl.Out) × World α)
  | [] => .ok ([], w)
  | op :: ops => do
    let (out, w) ← w.step dflt op
    let (outs, w) ← w.run dflt ops
    .ok (out :: outs, w)

end Verif.Mem
