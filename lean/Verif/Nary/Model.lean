import Verif.Avl.Model

/-!
Model of `structures/tree.h` (`tree_node_t`, `tree_t`) and of the traversals of `structures/binary_tree.h`.

Traversals take a callback that may depend on everything it has seen: `f before node` is its result when it is called on
`node` after the calls `before` (oldest first).  The callback is assumed not to modify the tree and not to throw.
-/

namespace Verif.Nary

/-- Slots of an n-ary node, left to right: `null` is a null slot, `node v kids` a child with its own slots
(tree.h:849 `_children`). -/
inductive Slots (α : Type) where
  | nil
  | null (rest : Slots α)
  | node (v : α) (kids rest : Slots α)
deriving DecidableEq, Repr

/-- A node as the callback sees it: value and slots. -/
abbrev Node (α : Type) := α × Slots α

/-- A callback. -/
abbrev Callback (ν : Type) := List ν → ν → Bool

variable {α : Type}

namespace Slots

/-- `_children` as a vector of pointers (tree.h:843-846 `children`). -/
def toList : Slots α → List (Option (Node α))
  | nil => []
  | null r => none :: toList r
  | node v k r => some (v, k) :: toList r

/-- Number of nodes below. -/
def size : Slots α → Nat
  | nil => 0
  | null r => size r
  | node _ k r => size k + size r + 1

end Slots

/-- Non-null children, left to right. -/
def kidsOf (k : Slots α) : List (Node α) := k.toList.filterMap id

/-- Number of nodes reachable from a work list. -/
def work : List (Node α) → Nat
  | [] => 0
  | (_, k) :: q => k.size + 1 + work q

theorem work_append (p q : List (Node α)) : work (p ++ q) = work p + work q := by
  induction p with
  | nil => simp [work]
  | cons x p ih => obtain ⟨v, k⟩ := x; simp only [List.cons_append, work, ih]; omega

theorem work_reverse (p : List (Node α)) : work p.reverse = work p := by
  induction p with
  | nil => rfl
  | cons x p ih => obtain ⟨v, k⟩ := x; simp only [List.reverse_cons, work_append, ih, work]; omega

theorem work_kidsOf (k : Slots α) : work (kidsOf k) = k.size := by
  induction k with
  | nil => rfl
  | null r ih => exact ih
  | node v k r ihk ihr =>
    show k.size + 1 + work (kidsOf r) = k.size + r.size + 1
    rw [ihr]; omega

theorem foldl_push (l st : List (Node α)) : l.foldl (fun st c => c :: st) st = l.reverse ++ st := by
  induction l generalizing st with
  | nil => rfl
  | cons x l ih => simp [ih]

/-- tree.h:1134-1152 (and the const copy 1163-1181): the `while` loop of `depth_first_search`.  `st` is the stack (top first),
`tr` the calls made so far, `visited` the counter. -/
def dfsLoop (f : Callback (Node α)) : List (Node α) → List (Node α) → Nat → List (Node α) × Nat
  | [], tr, visited => (tr, visited)
  | n :: st, tr, visited =>
    let stop := f tr n
    -- children pushed from the last to the first
    let st' := (kidsOf n.2).reverse.foldl (fun st c => c :: st) st
    if stop then (tr ++ [n], visited + 1) else dfsLoop f st' (tr ++ [n]) (visited + 1)
termination_by st => work st
decreasing_by
  rw [foldl_push, List.reverse_reverse, work_append, work_kidsOf]
  show _ < n.2.size + 1 + work st
  omega

/-- `depth_first_search` of a tree (`none`: no root). -/
def dfs (f : Callback (Node α)) : Option (Node α) → List (Node α) × Nat
  | none => ([], 0)
  | some r => dfsLoop f [r] [] 0

/-- tree.h:1073-1090 (const: 1102-1119): the loop of `breadth_first_search`; `q` is the queue (front first). -/
def bfsLoop (f : Callback (Node α)) : List (Node α) → List (Node α) → Nat → List (Node α) × Nat
  | [], tr, visited => (tr, visited)
  | n :: q, tr, visited =>
    let stop := f tr n
    let q' := (kidsOf n.2).foldl (fun q c => q ++ [c]) q
    if stop then (tr ++ [n], visited + 1) else bfsLoop f q' (tr ++ [n]) (visited + 1)
termination_by q => work q
decreasing_by
  have e : ∀ (l q : List (Node α)), l.foldl (fun q c => q ++ [c]) q = q ++ l := by
    intro l
    induction l with
    | nil => intro q; simp
    | cons x l ih => intro q; simp [ih]
  rw [e, work_append, work_kidsOf]
  show _ < n.2.size + 1 + work q
  omega

/-- `breadth_first_search`. -/
def bfs (f : Callback (Node α)) : Option (Node α) → List (Node α) × Nat
  | none => ([], 0)
  | some r => bfsLoop f [r] [] 0

/-! #### Recursive n-ary traversals -/

/-- tree.h:737-748 `pre_order`, the part over the slots: calls made so far, `visited`. -/
def preSlots (f : Callback (Node α)) : Slots α → List (Node α) → List (Node α) × Nat
  | .nil, tr => (tr, 0)
  | .null r, tr => preSlots f r tr
  | .node v k r, tr =>
    let stop := f tr (v, k)
    let (tr, n1) := if stop then (tr ++ [(v, k)], 0) else preSlots f k (tr ++ [(v, k)])
    let (tr, n2) := preSlots f r tr
    (tr, 1 + n1 + n2)

/-- tree.h:737-748 `pre_order`. -/
def preOrder (f : Callback (Node α)) (n : Node α) : List (Node α) × Nat :=
  preSlots f (.node n.1 n.2 .nil) []

/-- tree.h:756-766 `pos_order`, over the slots; the callback's result is ignored. -/
def posSlots : Slots α → List (Node α) → List (Node α) × Nat
  | .nil, tr => (tr, 0)
  | .null r, tr => posSlots r tr
  | .node v k r, tr =>
    let (tr, n1) := posSlots k tr
    let (tr, n2) := posSlots r (tr ++ [(v, k)])
    (tr, 1 + n1 + n2)

/-- tree.h:756-766 `pos_order`. -/
def posOrder (n : Node α) : List (Node α) × Nat := posSlots (.node n.1 n.2 .nil) []

/-- `calls--` on `size_t`. -/
def dec (calls : Nat) : Nat := if calls = 0 then W - 1 else calls - 1

/-- tree.h:702-729 `in_order`, the `for` loop over the slots of `owner`: `calls` is the unsigned counter (`calls--` wraps),
`brk` the static `recursion_break`.  Returns the calls made, `recursion_break`, and the nodes counted in this loop. -/
def inLoop (f : Callback (Node α)) (owner : Node α) :
    Slots α → Nat → List (Node α) → Bool → List (Node α) × Bool × Nat
  | .nil, _, tr, brk => (tr, brk, 0)
  | .null r, calls, tr, _brk =>
    if calls ≠ 0 then
      let b := f tr owner
      if b then (tr ++ [owner], true, 0)
      else inLoop f owner r (dec calls) (tr ++ [owner]) false
    else inLoop f owner r (dec calls) tr _brk
  | .node v k r, calls, tr, _ =>
    -- ptr->in_order(func): resets recursion_break
    let (tr, brk, n1) :=
      match k with
      | .nil => (tr ++ [(v, k)], false, 1)
      | _ =>
        let (tr, brk, m) := inLoop f (v, k) k (max (k.toList.length - 1) 1) tr false
        (tr, brk, 1 + m)
    if brk then (tr, true, n1)
    else if calls ≠ 0 then
      let b := f tr owner
      if b then (tr ++ [owner], true, n1)
      else
        let (tr, brk, n2) := inLoop f owner r (dec calls) (tr ++ [owner]) false
        (tr, brk, n1 + n2)
    else
      let (tr, brk, n2) := inLoop f owner r (dec calls) tr brk
      (tr, brk, n1 + n2)

/-- tree.h:702-729 `in_order` (const: 774-800): calls and `visited`. -/
def inOrder (f : Callback (Node α)) (n : Node α) : List (Node α) × Nat :=
  match n.2 with
  | .nil => ([n], 1)
  | k =>
    let (tr, _, m) := inLoop f n k (max (k.toList.length - 1) 1) [] false
    (tr, 1 + m)

/-! #### Binary traversals -/

/-- A binary node as the callback sees it: identity, value, children. -/
abbrev BNode (α : Type) := Nat × α × Avl.Tree α × Avl.Tree α

/-- binary_tree.h:315-327 (const 374-386) `in_order` and tree.h:961-963; a null child or root contributes nothing. -/
def bIn (f : Callback (BNode α)) : Avl.Tree α → List (BNode α) → List (BNode α) × Nat
  | .nil, tr => (tr, 0)
  | .node i _ v _ l r, tr =>
    let (tr, n1) := bIn f l tr
    let stop := f tr (i, v, l, r)
    let tr := tr ++ [(i, v, l, r)]
    let (tr, n2) := if stop then (tr, 0) else bIn f r tr
    (tr, 1 + n1 + n2)

/-- binary_tree.h:335-347 `pre_order`. -/
def bPre (f : Callback (BNode α)) : Avl.Tree α → List (BNode α) → List (BNode α) × Nat
  | .nil, tr => (tr, 0)
  | .node i _ v _ l r, tr =>
    let stop := f tr (i, v, l, r)
    let tr := tr ++ [(i, v, l, r)]
    if stop then (tr, 1)
    else
      let (tr, n1) := bPre f l tr
      let (tr, n2) := bPre f r tr
      (tr, 1 + n1 + n2)

/-- binary_tree.h:355-366 `pos_order`: the callback's result is ignored. -/
def bPos : Avl.Tree α → List (BNode α) → List (BNode α) × Nat
  | .nil, tr => (tr, 0)
  | .node i _ v _ l r, tr =>
    let (tr, n1) := bPos l tr
    let (tr, n2) := bPos r tr
    (tr ++ [(i, v, l, r)], 1 + n1 + n2)

/-- binary_tree.h:427-430 `children` = {left, right}: a binary tree as an n-ary one (value = identity and value). -/
def ofBinary : Avl.Tree α → Slots (Nat × α) → Slots (Nat × α)
  | .nil, rest => .null rest
  | .node i _ v _ l r, rest => .node (i, v) (ofBinary l (ofBinary r .nil)) rest

/-! #### Slots of one n-ary node -/

/-- What a slot owns: identity, value and `_parent` of the child node. -/
structure Kid (α : Type) where
  id : Nat
  val : α
  parent : Option Nat
deriving DecidableEq, Repr

/-- One `tree_node_t<T, max>`: identity, `_children`, and the allocator. -/
structure NodeSt (α : Type) where
  self : Nat
  slots : List (Option (Kid α))
  next : Nat
deriving DecidableEq, Repr

namespace NodeSt

/-- A fresh node without children (tree.h:241-262). -/
def fresh (self : Nat) : NodeSt α := ⟨self, [], self + 1⟩

/-- `new node_type_t{child, this}`. -/
def newKid (s : NodeSt α) (x : α) : Kid α := ⟨s.next, x, some s.self⟩

/-- tree.h:305-312 `add_child`. -/
def addChild (max : Nat) (s : NodeSt α) (x : α) : NodeSt α × Bool :=
  if s.slots.length < max then
    ({ s with slots := s.slots ++ [some (s.newKid x)], next := s.next + 1 }, true)
  else (s, false)

/-- tree.h:320-331 `insert_at_first_null`. -/
def insertFirstNull (max : Nat) (s : NodeSt α) (x : α) : NodeSt α × Bool :=
  let i := s.slots.findIdx (fun o => o.isNone)
  if i < s.slots.length then
    ({ s with slots := s.slots.set i (some (s.newKid x)), next := s.next + 1 }, true)
  else s.addChild max x

/-- `std::vector::resize(n, nullptr)` for n ≥ size. -/
def grow (l : List (Option (Kid α))) (n : Nat) : List (Option (Kid α)) := l ++ List.replicate (n - l.length) none

/-- tree.h:347-363 `insert_at`. -/
def insertAt (max : Nat) (s : NodeSt α) (pos : Nat) (x : α) : NodeSt α × Bool :=
  if pos < max then
    if pos < s.slots.length then
      match s.slots[pos]? with
      | some none => ({ s with slots := s.slots.set pos (some (s.newKid x)), next := s.next + 1 }, true)
      | _ => (s, false)
    else
      ({ s with slots := (grow s.slots (pos + 1)).set pos (some (s.newKid x)), next := s.next + 1 }, true)
  else (s, false)

/-- tree.h:381-399 `replace_at`; the last write is unchecked, UB when the position is outside the vector. -/
def replaceAt (max : Nat) (s : NodeSt α) (pos : Nat) (x : α) : Res (NodeSt α × Option (Kid α)) :=
  let (slots, replaced) :=
    if pos < max then
      if pos < s.slots.length then
        match s.slots[pos]? with
        | some (some k) => (s.slots.set pos none, some { k with parent := none })
        | _ => (s.slots, none)
      else (grow s.slots (pos + 1), none)
    else (s.slots, none)
  if pos < slots.length then
    .ok ({ s with slots := slots.set pos (some (s.newKid x)), next := s.next + 1 }, replaced)
  else .ub

/-- tree.h:409-420 `delete_child`. -/
def deleteChild (s : NodeSt α) (pos : Nat) : NodeSt α × Bool :=
  if pos < s.slots.length then ({ s with slots := s.slots.eraseIdx pos }, true) else (s, false)

/-- tree.h:433-444 `extract_child`. -/
def extractChild (s : NodeSt α) (pos : Nat) : NodeSt α × Option (Kid α) :=
  if pos < s.slots.length then
    match s.slots[pos]? with
    | some (some k) => ({ s with slots := s.slots.set pos none }, some { k with parent := none })
    | _ => (s, none)
  else (s, none)

/-- tree.h:451-454 `has_child`. -/
def hasChild (s : NodeSt α) (pos : Nat) : Bool :=
  match s.slots[pos]? with
  | some (some _) => true
  | _ => false

/-- tree.h:459-465 `clear`. -/
def clear (s : NodeSt α) : NodeSt α := { s with slots := [] }

/-- tree.h:471-477 `children_count` (`std::count` of null pointers subtracted from the size). -/
def childrenCount (s : NodeSt α) : Nat := s.slots.length - s.slots.countP (fun o => o.isNone)

/-- tree.h:487-503 `find`. -/
def find [DecidableEq α] (s : NodeSt α) (x : α) : Bool × Nat :=
  let i := s.slots.findIdx (fun o => match o with | some k => k.val == x | none => false)
  if i < s.slots.length then (true, i) else (false, W - 1)

/-- tree.h:512-526, 598-612 `child`. -/
def child (s : NodeSt α) (pos : Nat) : Res (Kid α) :=
  match s.slots[pos]? with
  | some (some k) => .ok k
  | some none => .exc .invalidNode
  | none => .exc .outOfRange

/-- tree.h:532-557 `first`. -/
def first (s : NodeSt α) : Res (Kid α) :=
  match s.slots.find? (fun o => o.isSome) with
  | some (some k) => .ok k
  | _ => .exc .invalidNode

/-- tree.h:563-589 `last`. -/
def last (s : NodeSt α) : Res (Kid α) :=
  match s.slots.reverse.find? (fun o => o.isSome) with
  | some (some k) => .ok k
  | _ => .exc .invalidNode

end NodeSt

/-- Calls on one node. -/
inductive NOp (α : Type) where
  | addChild (x : α) | insertFirstNull (x : α) | insertAt (pos : Nat) (x : α) | replaceAt (pos : Nat) (x : α)
  | deleteChild (pos : Nat) | extractChild (pos : Nat) | clear
deriving DecidableEq, Repr

/-- One call: state, and whether the call says that it added or removed a child. -/
def nstep (max : Nat) (s : NodeSt α) : NOp α → Res (NodeSt α × Bool)
  | .addChild x => .ok (s.addChild max x)
  | .insertFirstNull x => .ok (s.insertFirstNull max x)
  | .insertAt p x => .ok (s.insertAt max p x)
  | .replaceAt p x => do let (s, o) ← s.replaceAt max p x; .ok (s, o.isSome)
  | .deleteChild p => .ok (s.deleteChild p)
  | .extractChild p => .ok ((s.extractChild p).1, (s.extractChild p).2.isSome)
  | .clear => .ok (s.clear, true)

def nrun (max : Nat) (s : NodeSt α) : List (NOp α) → Res (NodeSt α)
  | [] => .ok s
  | op :: ops => do let (s, _) ← nstep max s op; nrun max s ops

/-! #### Ownership -/

/-- An n-ary tree with node identities; destroying it deletes the nodes `ids` (tree.h:294-296, 459-465, 1190-1195). -/
abbrev Owned := Option (Node Nat)

/-- Identities in a forest of slots. -/
def slotIds : Slots Nat → List Nat
  | .nil => []
  | .null r => slotIds r
  | .node i k r => i :: slotIds k ++ slotIds r

/-- Nodes deleted by the destructor. -/
def ownedIds : Owned → List Nat
  | none => []
  | some (i, k) => i :: slotIds k

/-- tree.h:917-923 `operator=(const tree_t&)` over `tree_node_t`: a new root, then the defaulted
`tree_node_t::operator=` (tree.h:291), which copies the vector of child pointers. -/
def copyAssignN (fresh : Nat) (dst src : Owned) : Owned :=
  match src with
  | none => dst
  | some (_, k) => some (fresh, k)

/-- Destruction of several trees one after the other: UB when a node is deleted twice. -/
def destroyAll (ts : List Owned) : Res Unit :=
  if (ts.flatMap ownedIds).Nodup then .ok () else .ub

/-! #### binary_node_t assignment -/

/-- Where the source of an assignment is, relative to the target node. -/
inductive Rel where
  | disjoint | self | below
deriving DecidableEq, Repr

/-- binary_tree.h:155-171 `binary_node_t::operator=(const binary_node_t&)` on a node with identity `i`, parent `p`, stored
height `h` and value `v`.  `clear()` runs first: it empties a self-assigned node and frees a source below the target. -/
def nodeCopyAssign (rel : Rel) (dst src : Avl.Tree α) (next : Nat) : Res (Avl.Tree α × Nat) :=
  match dst, src with
  | .node i p v h _ _, .node _ _ v' _ l' r' =>
    match rel with
    | .self => .ok (.node i p v h .nil .nil, next)
    | .below => .ub
    | .disjoint =>
      let (l, next) := l'.copy (some i) next
      let (r, next) := r'.copy (some i) next
      .ok (.node i p v' h l r, next)
  | _, _ => .ub

/-- binary_tree.h:182-200 `operator=(binary_node_t&&)`: target afterwards, source afterwards (its value is the moved-from
value `mv`). -/
def nodeMoveAssign (rel : Rel) (mv : α) (dst src : Avl.Tree α) : Res (Avl.Tree α × Avl.Tree α) :=
  match dst, src with
  | .node i p v h _ _, .node i' _ v' h' l' r' =>
    match rel with
    | .self => .ok (.node i none v h .nil .nil, .node i none v h .nil .nil)
    | .below => .ub
    | .disjoint =>
      .ok (.node i p v' h (l'.setParent (some i)) (r'.setParent (some i)), .node i' none mv h' .nil .nil)
  | _, _ => .ub

/-- tree.h:917-923 `operator=(const tree_t&)` over `binary_node_t` with the nodes that become unreachable; `dflt` is the
default-constructed value of a node, `self` says that source and target are the same object. -/
def treeCopyAssign (dflt : α) (self : Bool) (dst src : Avl.Tree α) (next : Nat) : Avl.Tree α × Nat × List (Avl.Tree α) :=
  match src with
  | .nil => (dst, next, [])
  | .node i p v h l r =>
    if self then
      -- `_root` is replaced first, so `other.root()` is the new node itself
      (.node next none dflt 1 .nil .nil, next + 1, [.node i p v h l r])
    else
      let (t, next) := (Avl.Tree.node i p v h l r).copy none next
      (t, next, [dst])

end Verif.Nary
