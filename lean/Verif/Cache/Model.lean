import Verif.Common

/-!
Model of `structures/cache.h` (`cache_t<key_t>`, the LRU cache).

`std::list` nodes carry an identity (`Nat`, allocated from `next`), so that iterators can dangle: an iterator is a node
identity, and using one that is not a node of *this* object's list (erased node, or node of another list) is UB.
`std::unordered_map` is a function `K → Option Nat`.

Simplifications:
* `_max_capacity` only sizes `_map.reserve` (cache.h:189-192) and is not modelled here (Reserve.lean: also the conversion overflow of
  `capacity * (1 + log2 capacity)` for capacities near 2^59 and above); nor is allocation failure (Throw.lean).
* `on_discard` is recorded in `log`; overrides are assumed not to call back into the cache (those that do: Hook.lean).
* a moved-from `std::list`/`std::unordered_map` is empty (true of all implementations).
-/

namespace Verif.Cache

/-- cache.h:317-322 data members. `list` is front to back. `log`: keys passed to `on_discard` so far, oldest first. -/
structure Cache (K : Type) where
  maxElements : Nat
  clipped : Nat
  last : Bool
  map : K → Option Nat
  list : List (Nat × K)
  next : Nat
  log : List K

/-- A `const key_t&` argument: either outside the cache (its value) or a reference to a list node. -/
inductive Arg (K : Type) where
  | val (k : K)
  | node (id : Nat)

variable {K : Type} [DecidableEq K]

namespace Cache

/-- Dereference an iterator / reference into the list. -/
def deref (c : Cache K) (id : Nat) : Res K :=
  match c.list.find? (fun p => p.1 = id) with
  | some p => .ok p.2
  | none => .ub

/-- Read a `const key_t&` argument. -/
def readArg (c : Cache K) : Arg K → Res K
  | .val k => .ok k
  | .node id => c.deref id

/-- cache.h:30 default constructor (capacity 1024). -/
def newDefault : Cache K := ⟨1024, 0, false, fun _ => none, [], 0, []⟩

/-- cache.h:49-52 `contains`. -/
def contains (c : Cache K) (k : K) : Bool := (c.map k).isSome

/-- One round of the loop of cache.h:155-161 `clip`; `none` when the loop ends. -/
def clipStep (c : Cache K) : Option (Cache K) :=
  if c.list.length > c.maxElements then
    match c.list.getLast? with
    | none => none
    | some back =>
      some { c with
        map := fun k => if k = back.2 then none else c.map k
        log := c.log ++ [back.2]
        list := c.list.dropLast
        clipped := c.clipped + 1 }
  else none

theorem clipStep_length {c c' : Cache K} (h : c.clipStep = some c') : c'.list.length < c.list.length := by
  unfold clipStep at h
  split at h
  · split at h
    · cases h
    · injection h with h
      rw [← h]
      simp only [List.length_dropLast]; omega
  · cases h

/-- The loop of `clip`. -/
def clipLoop (c : Cache K) : Cache K :=
  match _h : c.clipStep with
  | none => c
  | some c' => clipLoop c'
termination_by c.list.length
decreasing_by exact clipStep_length _h

/-- cache.h:152-163 `clip`. -/
def clip (c : Cache K) : Cache K := clipLoop { c with clipped := 0 }

/-- cache.h:187-196 `set_capacity`. -/
def setCapacity (c : Cache K) (capacity : Nat) : Cache K := clip { c with maxElements := capacity }

/-- cache.h:41-43 constructor. -/
def new (capacity : Nat) : Cache K := setCapacity newDefault capacity

/-- cache.h:307-315 `move_to_front`. -/
def moveToFront (c : Cache K) (it : Nat) : Res (Cache K) :=
  match c.list.find? (fun p => p.1 = it) with
  | none => .ub
  | some p =>
    if c.list.head?.map Prod.fst = some it then .ok c
    else .ok { c with
      list := (c.next, p.2) :: c.list.eraseP (fun q => q.1 = it)
      map := fun k => if k = p.2 then some c.next else c.map k
      next := c.next + 1 }

/-- cache.h:63-73 `find`; the iterator result is `_list.begin()`. -/
def find (c : Cache K) (a : Arg K) : Res (Cache K × Option Nat) := do
  let key ← c.readArg a
  match c.map key with
  | some it => do
    let c ← c.moveToFront it
    match c.list.head? with
    | some p => .ok (c, some p.1)
    | none => .ub
  | none => .ok (c, none)

/-- cache.h:135-145 `add`. -/
def add (c : Cache K) (a : Arg K) : Res (Cache K) := do
  let key ← c.readArg a
  let ok := !c.contains key
  if ok then do
    let c1 := { c with list := (c.next, key) :: c.list, next := c.next + 1 }
    let key ← c1.readArg a
    let c2 := { c1 with map := fun k => if k = key then some c.next else c.map k }
    .ok { c2.clip with last := ok }
  else .ok { c with last := ok }

/-- cache.h:81-90 `operator[]`; returns the node referred to. -/
def access (c : Cache K) (a : Arg K) : Res (Cache K × Nat) := do
  let key ← c.readArg a
  let c ← if !c.contains key then c.add a else .ok { c with last := false }
  let (c, it) ← c.find a
  match it with
  | some id => do
    let _ ← c.deref id
    .ok (c, id)
  | none => .ub

/-- cache.h:241-253 `remove`: the argument is read again by `_map.erase(key)` after the node is gone. -/
def remove (c : Cache K) (a : Arg K) : Res (Cache K) := do
  let key ← c.readArg a
  match c.map key with
  | some it => do
    let _ ← c.deref it
    let c := { c with list := c.list.eraseP (fun q => q.1 = it) }
    let key ← c.readArg a
    .ok { c with map := fun k => if k = key then none else c.map k, last := true }
  | none => .ok { c with last := false }

/-- cache.h:268-272 `clear`. -/
def clear (c : Cache K) : Cache K := { c with map := fun _ => none, list := [] }

/-- cache.h:229-232 `values` (also begin/end, l.96-108). -/
def values (c : Cache K) : List K := c.list.map Prod.snd

/-- cache.h:259-262 `size`. -/
def size (c : Cache K) : Nat := c.list.length

/-- cache.h:278-281 `empty`. -/
def empty (c : Cache K) : Bool := decide (c.size = 0)

/-- cache.h:211-214 `most_recent`. -/
def mostRecent (c : Cache K) : Res K :=
  match c.list.head? with
  | some p => .ok p.2
  | none => .ub

/-- cache.h:220-223 `least_recent`. -/
def leastRecent (c : Cache K) : Res K :=
  match c.list.getLast? with
  | some p => .ok p.2
  | none => .ub

/-- cache.h:31 copy constructor (and l.33 copy assignment): the list gets new nodes, the map keeps the old iterators.
The log of discards belongs to the new object. -/
def copy (c : Cache K) : Cache K :=
  { c with
    list := c.list.zipIdx.map (fun p => (c.next + p.2, p.1.2))
    next := c.next + c.list.length
    log := [] }

/-- cache.h:32 move constructor (and l.34): (destination, source afterwards).  The nodes move with the list. -/
def move (c : Cache K) : Cache K × Cache K :=
  ({ c with log := [] }, { c with map := fun _ => none, list := [] })

end Cache

/-- The mutating calls, with arguments by value. -/
inductive Op (K : Type) where
  | add (k : K) | find (k : K) | access (k : K) | remove (k : K) | clear | setCapacity (n : Nat) | clip
deriving DecidableEq, Repr

/-- What a call returns: `find` the dereferenced iterator if found, `operator[]` the element. -/
inductive Out (K : Type) where
  | none | found (k : Option K) | elem (k : K)
deriving DecidableEq, Repr

/-- One call. -/
def step (c : Cache K) : Op K → Res (Cache K × Out K)
  | .add k => do let c ← c.add (.val k); .ok (c, .none)
  | .find k => do
    let (c, it) ← c.find (.val k)
    match it with
    | some id => do let e ← c.deref id; .ok (c, .found (some e))
    | none => .ok (c, .found none)
  | .access k => do
    let (c, id) ← c.access (.val k)
    let e ← c.deref id
    .ok (c, .elem e)
  | .remove k => do let c ← c.remove (.val k); .ok (c, .none)
  | .clear => .ok (c.clear, .none)
  | .setCapacity n => .ok (c.setCapacity n, .none)
  | .clip => .ok (c.clip, .none)

/-- A history of calls; returns the outputs in order. -/
def run (c : Cache K) : List (Op K) → Res (Cache K × List (Out K))
  | [] => .ok (c, [])
  | op :: ops => do
    let (c, o) ← step c op
    let (c, os) ← run c ops
    .ok (c, o :: os)

end Verif.Cache
