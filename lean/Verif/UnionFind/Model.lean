import Verif.Common

/-!
Model of `structures/union_set.h` (`union_set_t`) and `structures/union_find.h` (`union_find_t<T, c>`).

The private functions `_find`, `_same_set`, `_join`, `_join_set` are textually the same in both classes
(union_set.h:147-231, union_find.h:221-305) and are modelled once on the shared `Core`.

Simplifications:
* `_items[i].first` is never read by `union_set_t` and is the inserted element in `union_find_t`.
* C++ leaves the evaluation order of the two arguments in `_join(_find(a), _find(b))` and of the operands in
  `_find(a) == _find(b)` open; the model takes the order as an argument (`true`: left first).
* recursion depth is explicit (`fuel`); exhausting it (unbounded recursion, stack overflow) is UB.
* `std::unordered_map` is a function `T → Option Nat`.
-/

namespace Verif.UnionFind

/-- union_set.h:23 / union_find.h:25 `not_found`. -/
def notFound : Nat := W - 1

/-- `_items[i].second` and `_ranks[i]`, and the compression flag (union_set.h:14-18, union_find.h:14-17). -/
structure Core where
  parent : List Nat
  rank : List Nat
  compress : Bool
deriving DecidableEq, Repr

/-- union_set.h:225-231 / union_find.h:299-305 `_join_set`. -/
def joinSet (c : Core) (slave master : Nat) : Res Core := do
  let slaveRank ← rd c.rank slave
  let masterRank ← rd c.rank master
  let _ ← rd c.parent slave
  .ok { c with
    parent := c.parent.set slave master
    rank := c.rank.set master ((masterRank + slaveRank) % W) }

/-- union_set.h:147-183 / union_find.h:221-257 `_find`. -/
def findFuel : Nat → Core → Nat → Res (Core × Nat)
  | 0, _, _ => .ub
  | fuel + 1, c, elem => do
    let parent ← rd c.parent elem
    let _ ← rd c.rank elem
    let _ ← rd c.rank parent
    if elem = parent then .ok (c, elem)
    else if c.compress then do
      let (c, root) ← findFuel fuel c parent
      let c ←
        if root ≠ parent then do
          let parentRank ← rd c.rank parent
          let rank ← rd c.rank elem
          let c :=
            if parentRank > 1 then { c with rank := c.rank.set parent ((parentRank + W - rank) % W) }
            else { c with rank := c.rank.set elem 0 }
          joinSet c elem root
        else .ok c
      .ok ({ c with rank := c.rank.set elem 1 }, root)
    else findFuel fuel c parent

/-- `_find` with enough depth for any forest on the existing items. -/
def find (c : Core) (elem : Nat) : Res (Core × Nat) := findFuel (c.parent.length + 1) c elem

/-- Two calls of `_find` in the given order; results in argument order. -/
def find2 (leftFirst : Bool) (c : Core) (a b : Nat) : Res (Core × Nat × Nat) :=
  if leftFirst then do
    let (c, ra) ← find c a
    let (c, rb) ← find c b
    .ok (c, ra, rb)
  else do
    let (c, rb) ← find c b
    let (c, ra) ← find c a
    .ok (c, ra, rb)

/-- union_set.h:193-195 / union_find.h:267-269 `_same_set`. -/
def sameSet (leftFirst : Bool) (c : Core) (a b : Nat) : Res (Core × Bool) :=
  if a = b then .ok (c, true)
  else do
    let (c, ra, rb) ← find2 leftFirst c a b
    .ok (c, decide (ra = rb))

/-- The counters `_disjoint`, `_acorn`. -/
structure Counters where
  disjoint : Nat
  acorn : Nat
deriving DecidableEq, Repr

/-- union_set.h:202-219 / union_find.h:276-293 `_join`.  (In union_find.h the ranks are references, re-read at
l.282 and l.289; `_same_set` does not change the rank of the two roots, and `!rank` is 0 for both at l.289.
The model re-reads the ranks for the comparison and uses the earlier value for `_acorn`, as union_set.h does.) -/
def joinRoots (leftFirst : Bool) (c : Core) (k : Counters) (first second : Nat) : Res (Core × Counters × Bool) := do
  let firstRank ← rd c.rank first
  let secondRank ← rd c.rank second
  let (c, same) ← sameSet leftFirst c first second
  if !same then do
    let c ← if firstRank ≤ secondRank then joinSet c first second else joinSet c second first
    let dec := (if firstRank = 0 then 1 else 0) + (if secondRank = 0 then 1 else 0)
    .ok (c, ⟨(k.disjoint + W - 1) % W, (k.acorn + W - dec) % W⟩, true)
  else .ok (c, k, false)

/-- `_join(_find(a), _find(b))`. -/
def joinElems (o1 o2 : Bool) (c : Core) (k : Counters) (a b : Nat) : Res (Core × Counters × Bool) := do
  let (c, ra, rb) ← find2 o1 c a b
  joinRoots o2 c k ra rb

/-! ### `union_set_t` -/

structure USet where
  core : Core
  cnt : Counters
deriving DecidableEq, Repr

namespace USet

/-- union_set.h:75-77 `exists`. -/
def «exists» (s : USet) (set : Nat) : Bool := decide (set < s.core.parent.length)

/-- union_set.h:60-69 `insert` (both accesses are guarded by `exists`). -/
def insert (s : USet) (elem : Nat) : USet × Bool :=
  let canBeInserted := s.exists elem
  if canBeInserted then
    (⟨{ s.core with rank := s.core.rank.set elem 1, parent := s.core.parent.set elem elem },
      ⟨(s.cnt.disjoint + 1) % W, (s.cnt.acorn + 1) % W⟩⟩, !canBeInserted)
  else (s, !canBeInserted)

/-- union_set.h:43-54 `resize`. -/
def resize (s : USet) (size : Nat) : USet × Bool :=
  let old := s.core.parent.length
  if old < size then
    let s := { s with core := { s.core with
      parent := s.core.parent ++ List.replicate (size - old) 0
      rank := s.core.rank ++ List.replicate (size - old) 0 } }
    ((List.range' old (size - old)).foldl (fun s ii => (s.insert ii).1) s, true)
  else (s, false)

/-- union_set.h:34-38 constructor. -/
def new (capacity : Nat) (compress : Bool) : USet :=
  (resize ⟨⟨[], [], compress⟩, ⟨0, 0⟩⟩ capacity).1

/-- union_set.h:87-89 `same`. -/
def same (o : Bool) (s : USet) (a b : Nat) : Res (USet × Bool) :=
  if s.exists a && s.exists b then do
    let (c, r) ← sameSet o s.core a b
    .ok ({ s with core := c }, r)
  else .ok (s, false)

/-- union_set.h:98-103 `find`. -/
def find (s : USet) (set : Nat) : Res (USet × Nat) :=
  if !s.exists set then .ok (s, notFound)
  else do
    let (c, r) ← UnionFind.find s.core set
    .ok ({ s with core := c }, r)

/-- union_set.h:110-114 `join`. -/
def join (o1 o2 : Bool) (s : USet) (a b : Nat) : Res (USet × Bool) :=
  if s.exists a && s.exists b then do
    let (c, k, r) ← joinElems o1 o2 s.core s.cnt a b
    .ok (⟨c, k⟩, r)
  else .ok (s, false)

/-- union_set.h:134-137 `size_of`. -/
def sizeOf (s : USet) (set : Nat) : Res (USet × Nat) := do
  let (s, root) ← s.find set
  if root ≠ notFound then do
    let k ← rd s.core.rank root
    .ok (s, k)
  else .ok (s, 0)

/-- union_set.h:119-121 `disjoint`. -/
def disjoint (s : USet) : Nat := s.cnt.disjoint

/-- union_set.h:126-128 `acorn`. -/
def acorn (s : USet) : Nat := s.cnt.acorn

end USet

/-! ### `union_find_t<T, compress>` -/

/-- union_find.h:16-20; `core` holds `_items[i].second` and `_ranks`, `ids` is `_items_id`
(`_items[i].first` is only written). -/
structure UF (T : Type) where
  core : Core
  cnt : Counters
  ids : T → Option Nat

namespace UF
variable {T : Type} [DecidableEq T]

/-- union_find.h:27 default constructor. -/
def new (compress : Bool) : UF T := ⟨⟨[], [], compress⟩, ⟨0, 0⟩, fun _ => none⟩

/-- union_find.h:91-93 `exists`. -/
def «exists» (s : UF T) (key : T) : Bool := (s.ids key).isSome

/-- union_find.h:99-101 `exists_set`. -/
def existsSet (s : UF T) (set : Nat) : Bool := decide (set < s.core.parent.length)

/-- union_find.h:54-66 `insert`. (`emplace`, l.75-86, does not compile when it is used: `std::make_pair<T, size_t>` does not take the lvalue `id`.) -/
def insert (s : UF T) (elem : T) : UF T × Bool :=
  if s.exists elem then (s, false)
  else
    let id := s.core.parent.length
    (⟨{ s.core with parent := s.core.parent ++ [id], rank := s.core.rank ++ [1] },
      ⟨(s.cnt.disjoint + 1) % W, (s.cnt.acorn + 1) % W⟩,
      fun k => if k = elem then some id else s.ids k⟩, true)

/-- `_items_id.at(key)`: throws when absent. -/
def idAt (s : UF T) (key : T) : Res Nat :=
  match s.ids key with
  | some i => .ok i
  | none => .exc .outOfRange

/-- union_find.h:111-115 `same_set`. -/
def sameSetElems (o : Bool) (s : UF T) (a b : T) : Res (UF T × Bool) :=
  if s.exists a && s.exists b then do
    let ia ← s.idAt a
    let ib ← s.idAt b
    let (c, r) ← sameSet o s.core ia ib
    .ok ({ s with core := c }, r)
  else .ok (s, false)

/-- union_find.h:138-143 `find_by_elem`. -/
def findByElem (s : UF T) (a : T) : Res (UF T × Nat) :=
  if !s.exists a then .ok (s, notFound)
  else do
    let ia ← s.idAt a
    let (c, r) ← UnionFind.find s.core ia
    .ok ({ s with core := c }, r)

/-- union_find.h:175-179 `join_sets`. -/
def joinSets (o1 o2 : Bool) (s : UF T) (a b : T) : Res (UF T × Bool) :=
  if s.exists a && s.exists b then do
    let ia ← s.idAt a
    let ib ← s.idAt b
    let (c, k, r) ← joinElems o1 o2 s.core s.cnt ia ib
    .ok ({ s with core := c, cnt := k }, r)
  else .ok (s, false)

/-- union_find.h:208-211 `size_of(const T&)`. -/
def sizeOfElem (s : UF T) (a : T) : Res (UF T × Nat) := do
  let (s, root) ← s.findByElem a
  if root ≠ notFound then do
    let k ← rd s.core.rank root
    .ok (s, k)
  else .ok (s, 0)

/-- union_find.h:152-157 `find(set)`: the existence test is `exists(set)`, i.e. the set id converted to a *key*
(`toKey` is the implicit conversion from `size_t` to `T`). -/
def findId (toKey : Nat → T) (s : UF T) (set : Nat) : Res (UF T × Nat) :=
  if !s.exists (toKey set) then .ok (s, notFound)
  else do
    let (c, r) ← UnionFind.find s.core set
    .ok ({ s with core := c }, r)

/-- union_find.h:199-202 `size_of(size_t)`. -/
def sizeOfId (toKey : Nat → T) (s : UF T) (set : Nat) : Res (UF T × Nat) := do
  let (s, root) ← s.findId toKey set
  if root ≠ notFound then do
    let k ← rd s.core.rank root
    .ok (s, k)
  else .ok (s, 0)

/-- union_find.h:164-168 `join(id, id)`. -/
def joinIds (toKey : Nat → T) (o1 o2 : Bool) (s : UF T) (a b : Nat) : Res (UF T × Bool) :=
  if s.exists (toKey a) && s.exists (toKey b) then do
    let (c, k, r) ← joinElems o1 o2 s.core s.cnt a b
    .ok ({ s with core := c, cnt := k }, r)
  else .ok (s, false)

/-- union_find.h:125-129 `same(id, id)`. -/
def sameIds (toKey : Nat → T) (o : Bool) (s : UF T) (a b : Nat) : Res (UF T × Bool) :=
  if s.exists (toKey a) && s.exists (toKey b) then do
    let (c, r) ← sameSet o s.core a b
    .ok ({ s with core := c }, r)
  else .ok (s, false)

end UF
end Verif.UnionFind
