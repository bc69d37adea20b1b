import Verif.Heap.Model

/-!
Model of structures/segment_tree.h (`segment_tree_t`), function by function.

* The heap is the flat vector of range nodes; `lower_bound`/`upper_bound` use the stored `index` field of a node and
  unchecked indexing (`rd`), so any wrong index shows up as UB.
* The user's transform class is the structure `Transform`.  `join` and `build` write their first argument only (they cannot
  depend on the old value of the output parameter).  `apply` and `propagate` receive whole nodes by reference and may change
  every field.
* `range_value_t value;` is uninitialised until a branch assigns it.  The only path that does not assign is a leaf whose
  interval is not the requested one; it is modelled as UB because the indeterminate value is read by the caller.
* Recursion is bounded by fuel; running out of fuel is reported as UB too, so `ok` results mean termination.  The public
  calls use the heap size as fuel.
* `minimum_required_size_for_head` is `ceil(pow(2.0, log2(n) + 2))` in floating point.  It is a parameter `need`; in exact
  arithmetic it is `4 * n` (`exactNeed`).
* `update_t` is assumed to have a default constructor that initialises it (`Transform.none`).
-/

namespace Verif.Seg
open Verif.Heap (leftOf rightOf wrAt resize)

/-- segment_tree.h:73-124 `range_node_t` (`stop` is the field `end`, inclusive). -/
structure RNode (V U : Type) where
  start : Nat
  stop : Nat
  index : Nat
  value : V
  lazy : U
deriving DecidableEq, Repr

variable {T V U : Type}

/-- segment_tree.h:92-95 `center`. -/
def RNode.center (n : RNode V U) : Nat := (n.start + n.stop) / 2

/-- segment_tree.h:100-111 `length() == 0`; `end - start` in `size_t` is 0 exactly for equal bounds. -/
def RNode.leaf (n : RNode V U) : Bool := n.start == n.stop

/-- segment_tree.h:501-553 `segment_node_t`: the operations supplied by the user. -/
structure Transform (T V U : Type) where
  /-- `join(parent, left, right)` -/
  join : V → V → V
  /-- `build(value, element, position)` -/
  build : T → Nat → V
  /-- `update_t::operator bool` -/
  has : U → Bool
  /-- `update_t{}` -/
  none : U
  /-- a default constructed `range_value_t` -/
  dflt : V
  criteria : RNode V U → Bool
  propagate : RNode V U → RNode V U → RNode V U → RNode V U × RNode V U × RNode V U
  apply : RNode V U → U → RNode V U

/-- segment_tree.h:126-127 and heap: the members used (`_changes_not_applied` is never used). -/
structure SegT (V U : Type) where
  size : Nat
  built : Bool
  heap : List (RNode V U)
deriving DecidableEq, Repr

/-- A default constructed tree (segment_tree.h:129, 491-494). -/
def SegT.new : SegT V U := ⟨0, false, []⟩

/-- Default constructed node: bounds `not_found` (segment_tree.h:74-76). -/
def dfltNode (X : Transform T V U) : RNode V U := ⟨W - 1, W - 1, 0, X.dflt, X.none⟩

/-- Write through a reference to heap cell `i` that was obtained by an in-bounds access. -/
def put (h : List (RNode V U)) (i : Nat) (n : RNode V U) : List (RNode V U) := h.set i n

/-- segment_tree.h:336-382 `_range_query(start, end, heap[i], value)`; returns `value` and the heap. -/
def rangeQuery (X : Transform T V U) : Nat → Nat → Nat → Nat → List (RNode V U) → Res (V × List (RNode V U))
  | 0, _, _, _, _ => .ub
  | fuel + 1, start, stop, i, h => do
    let n ← rd h i
    if (n.start = start ∧ stop = n.stop) ∧ (n.leaf = true ∨ X.has n.lazy = false) then
      .ok (n.value, h)
    else if n.leaf = false then
      let center := n.center
      let li := leftOf n.index
      let ri := rightOf n.index
      let l ← rd h li
      let r ← rd h ri
      let h :=
        if X.has n.lazy then
          let (n', l', r') := X.propagate n l r
          put (put (put h i n') li l') ri r'
        else h
      let (value, h) ←
        if start ≤ center ∧ stop > center then do
          let (left, h) ← rangeQuery X fuel start (min stop center) li h
          let (right, h) ← rangeQuery X fuel (center + 1) stop ri h
          Res.ok (X.join left right, h)
        else if start ≤ center then rangeQuery X fuel start stop li h
        else if stop > center then rangeQuery X fuel start stop ri h
        else Res.ub
      let n ← rd h i
      let l ← rd h li
      let r ← rd h ri
      .ok (value, put h i { n with value := X.join l.value r.value })
    else .ub

/-- segment_tree.h:390-443 `_range_update(start, end, heap[i], change, value)`. -/
def rangeUpdate (X : Transform T V U) (change : U) :
    Nat → Nat → Nat → Nat → List (RNode V U) → Res (V × List (RNode V U))
  | 0, _, _, _, _ => .ub
  | fuel + 1, start, stop, i, h => do
    let n ← rd h i
    if (n.start = start ∧ stop = n.stop) ∧ (n.leaf = true ∨ X.has n.lazy = false ∨ X.criteria n = true) then
      let n' := if X.has change then X.apply n change else n
      .ok (n'.value, put h i n')
    else if n.leaf = false then
      let center := n.center
      let li := leftOf n.index
      let ri := rightOf n.index
      let l ← rd h li
      let r ← rd h ri
      let h :=
        if X.has n.lazy then
          let (n', l', r') := X.propagate n l r
          put (put (put h i n') li l') ri r'
        else h
      let (value, h) ←
        if start ≤ center ∧ stop > center then do
          let (left, h) ← rangeUpdate X change fuel start center li h
          let (right, h) ← rangeUpdate X change fuel (center + 1) stop ri h
          Res.ok (X.join left right, h)
        else if start ≤ center then rangeUpdate X change fuel start stop li h
        else if stop > center then rangeUpdate X change fuel start stop ri h
        else Res.ub
      let n ← rd h i
      let l ← rd h li
      let r ← rd h ri
      .ok (value, put h i { n with value := X.join l.value r.value })
    else .ub

/-- segment_tree.h:466-489 `build(input, heap[i])`; `input[range.start]` is unchecked. -/
def buildNode (X : Transform T V U) (input : List T) : Nat → Nat → List (RNode V U) → Res (List (RNode V U))
  | 0, _, _ => .ub
  | fuel + 1, i, h => do
    let n ← rd h i
    if n.stop > n.start then
      let li := leftOf n.index
      let ri := rightOf n.index
      let l ← rd h li
      let r ← rd h ri
      let center := n.center
      let l := { l with start := n.start, stop := center, index := li, lazy := X.none }
      let r := { r with start := center + 1, stop := n.stop, index := ri, lazy := X.none }
      let h := put (put h li l) ri r
      let h ← buildNode X input fuel li h
      let h ← buildNode X input fuel ri h
      let n ← rd h i
      let l ← rd h li
      let r ← rd h ri
      .ok (put h i { n with value := X.join l.value r.value })
    else do
      let x ← rd input n.start
      .ok (put h i { n with value := X.build x n.start })

/-- segment_tree.h:287-290 in exact arithmetic: `2 ^ (log2 n + 2) = 4 n`. -/
def exactNeed (n : Nat) : Nat := 4 * n

/-- segment_tree.h:447-459 `build(input, number_of_elements)`, also the constructor and `rebuild`. -/
def build (X : Transform T V U) (need : Nat → Nat) (t : SegT V U) (input : List T) (number : Nat) : Res (SegT V U) := do
  let size := if number < input.length then number else input.length
  if size ≠ 0 then
    let newSize := need size
    let h := if t.heap.length < newSize then resize (dfltNode X) t.heap newSize else t.heap
    let h ← wrAt h 0 ⟨0, size - 1, 0, X.dflt, X.none⟩
    let h ← buildNode X input h.length 0 h
    .ok ⟨size, true, h⟩
  else .ok { t with size := size }

/-- `size() - 1` in `size_t`. -/
def lastPos (t : SegT V U) : Nat := (t.size + W - 1) % W

/-- segment_tree.h:178-187 `query`. -/
def query (X : Transform T V U) (t : SegT V U) (a b : Nat) : Res (V × SegT V U) :=
  if t.built = false then .exc .notBuilt
  else do
    let s := min (min a b) (lastPos t)
    let e := min (max a b) (lastPos t)
    let _ ← Heap.head t.heap
    let (v, h) ← rangeQuery X t.heap.length s e 0 t.heap
    .ok (v, { t with heap := h })

/-- segment_tree.h:195-203 `query_update`. -/
def queryUpdate (X : Transform T V U) (t : SegT V U) (a b : Nat) (change : U) : Res (V × SegT V U) :=
  if t.built = false then .exc .notBuilt
  else do
    let s := min (min a b) (lastPos t)
    let e := min (max a b) (lastPos t)
    let _ ← Heap.head t.heap
    let (v, h) ← rangeUpdate X change t.heap.length s e 0 t.heap
    .ok (v, { t with heap := h })

/-- Calls on a tree. -/
inductive Op (T U : Type) where
  | query (a b : Nat)
  | update (a b : Nat) (u : U)
  | rebuild (input : List T) (number : Nat)
deriving DecidableEq, Repr

/-- A history of calls; the result collects the returned range values (`none` for `rebuild`). -/
def run (X : Transform T V U) (need : Nat → Nat) : SegT V U → List (Op T U) → Res (SegT V U × List (Option V))
  | t, [] => .ok (t, [])
  | t, .query a b :: ops => do
    let (v, t) ← query X t a b
    let (t, vs) ← run X need t ops
    .ok (t, some v :: vs)
  | t, .update a b u :: ops => do
    let (v, t) ← queryUpdate X t a b u
    let (t, vs) ← run X need t ops
    .ok (t, some v :: vs)
  | t, .rebuild input number :: ops => do
    let t ← build X need t input number
    let (t, vs) ← run X need t ops
    .ok (t, none :: vs)

/-! #### The transforms of the library and two user transforms for the examples -/

/-- segment_tree.h:555-584 `range_operation_t` without updates (`empty_update_t`, segment_tree.h:29-44: `operator bool` is
false).  `propagate` and `apply` are the empty defaults, `criteria` the default `true`.
`join(T&, const size_t&, const size_t&)` overrides the base only for `T = size_t`; for other `T` the class is abstract and
does not compile, so `V` is a 64-bit unsigned number. -/
def rangeOp (op : Nat → Nat → Nat) : Transform Nat Nat Unit where
  join := op
  build x _ := x
  has _ := false
  none := ()
  dflt := 0
  criteria _ := true
  propagate n l r := (n, l, r)
  apply n _ := n

/-- User transform: add a number to a range, query the sum. -/
def addSum : Transform Int Int Int where
  join := (· + ·)
  build x _ := x
  has u := u != 0
  none := 0
  dflt := 0
  criteria _ := true
  propagate n l r :=
    ({ n with lazy := 0 },
     { l with value := l.value + n.lazy * (l.stop + 1 - l.start : Nat), lazy := l.lazy + n.lazy },
     { r with value := r.value + n.lazy * (r.stop + 1 - r.start : Nat), lazy := r.lazy + n.lazy })
  apply n u := { n with value := n.value + u * (n.stop + 1 - n.start : Nat), lazy := n.lazy + u }

/-- User transform: assign to a range, query the concatenation of the digits (not commutative); splits below marked nodes. -/
def assignCat : Transform Nat (List Nat) (Option Nat) where
  join := (· ++ ·)
  build x _ := [x]
  has u := u.isSome
  none := none
  dflt := []
  criteria _ := false
  propagate n l r :=
    ({ n with lazy := none },
     { l with value := l.value.map fun v => n.lazy.getD v, lazy := n.lazy },
     { r with value := r.value.map fun v => n.lazy.getD v, lazy := n.lazy })
  apply n u := { n with value := n.value.map fun v => u.getD v, lazy := u }

end Verif.Seg
