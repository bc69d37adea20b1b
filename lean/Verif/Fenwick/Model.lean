import Verif.Fenwick.Bits

/-!
Model of `structures/fenwick_tree.h` (`fenwick_tree_t<T, transform_t>`), lines 31-325.

Simplifications:
* `size_t` values are natural numbers; the only arithmetic that can wrap (`-index`, `index + lsb`, `size() - 1`)
  is written with explicit reduction modulo `2^64`.
* arithmetic on `T` is the arithmetic of the parameter `Transform`; signed overflow of `T` is in Signed.lean
  (unsigned wrap-around is inside, as `T := BitVec n`).
* `reserve` (l.147-150) has no observable effect and is omitted.
-/

namespace Verif.Fenwick

/-- tools/math_operation.h:21-95 – what `fenwick_tree_t` uses of `transform_t`: the operation, the reverse
operation (`reverse_t`; integer division by zero is UB), the null value, and the contextual conversion of `T`
to `bool`; `zero` is `static_cast<T>(0)` / `A{}` of structures/fenwick_tree.h:302,318. -/
structure Transform (T : Type) where
  op : T → T → T
  rev : T → T → Res T
  null : T
  truthy : T → Bool
  zero : T

/-- The data members, structures/fenwick_tree.h:323-324. -/
structure Tree (T : Type) where
  processed : List T
  built : Bool
deriving DecidableEq, Repr

/-- structures/fenwick_tree.h:38 default constructor. -/
def Tree.empty {T} : Tree T := ⟨[], false⟩

/-- structures/fenwick_tree.h:264-271 `_update`.  (`position && position < size()` guards both accesses.)
The test `i < W` is always true for a `size_t`; it is only there for the termination checker. -/
def updateCells {T} (t : Transform T) (cells : List T) (position : Nat) (value : T) : List T :=
  if h : 0 < position ∧ position < cells.length ∧ position < W then
    updateCells t (cells.set position (t.op (cells[position]'h.2.1) value)) (nextUpdate position) value
  else cells
termination_by if position = 0 then 0 else cells.length - position
decreasing_by
  have := nextUpdate_cases position h.1 h.2.2
  simp only [List.length_set]
  split <;> split <;> omega

/-- structures/fenwick_tree.h:284-286, the `while` loop of `_range_query(position)`. -/
def queryLoop {T} (t : Transform T) (cells : List T) (index : Nat) (value : T) : Res T :=
  let next := nextQuery index
  if h : 0 < next ∧ next < index then do
    let c ← rd cells next
    queryLoop t cells next (t.op c value)
  else .ok value
termination_by index
decreasing_by exact h.2

/-- structures/fenwick_tree.h:279-288 `_range_query(position)`. -/
def prefixQuery {T} (t : Transform T) (cells : List T) (position : Nat) : Res T := do
  let v ← rd cells position
  queryLoop t cells position v

/-- structures/fenwick_tree.h:298-321 `_range_query(start, end)` (class and scalar versions coincide). -/
def rangeQuery {T} (t : Transform T) (cells : List T) (start stop : Nat) : Res T := do
  let discarded ← if start ≤ 1 then .ok t.zero else prefixQuery t cells (start - 1)
  let value ← prefixQuery t cells stop
  if t.truthy discarded then t.rev value discarded else .ok value

/-- structures/fenwick_tree.h:251-253, the loop of `_build`: `for ii in [1, size): _update(ii, input[ii-1])`,
here from `ii` with the remaining input. -/
def buildLoop {T} (t : Transform T) (cells : List T) (ii : Nat) : List T → List T
  | [] => cells
  | x :: rest => buildLoop t (updateCells t cells ii x) (ii + 1) rest

/-- structures/fenwick_tree.h:236-256 `_build`. -/
def Tree.build {T} (t : Transform T) (f : Tree T) (input : List T) (numberOfElements : Nat) : Tree T :=
  let size := if numberOfElements < input.length then numberOfElements + 1 else input.length + 1
  let cells :=
    if f.processed.length < size then List.replicate size t.null
    else if f.built then List.replicate size t.null   -- resize (size ≤ length) + fill_n
    else f.processed
  ⟨buildLoop t cells 1 (input.take (size - 1)), true⟩

/-- structures/fenwick_tree.h:89-99 `update`. -/
def Tree.update {T} (t : Transform T) (f : Tree T) (position : Nat) (value : T) : Res (Tree T × Bool) :=
  if !f.built then .exc .notBuilt
  else
    let ok := decide (position < f.processed.length)
    if ok && t.truthy value then .ok ({ f with processed := updateCells t f.processed position value }, ok)
    else .ok (f, ok)

/-- structures/fenwick_tree.h:166-172 `query`; `size() - 1` wraps when the array is empty. -/
def Tree.query {T} (t : Transform T) (f : Tree T) (start stop : Nat) : Res T :=
  if !f.built then .exc .notBuilt
  else
    let last := (f.processed.length + (W - 1)) % W
    rangeQuery t f.processed (min (min start stop) last) (min (max start stop) last)

/-- structures/fenwick_tree.h:183-196 `set_value`. -/
def Tree.setValue {T} (t : Transform T) (f : Tree T) (position : Nat) (value : T) : Res (Tree T × Bool) :=
  if !f.built then .exc .notBuilt
  else
    let ok := decide (position < f.processed.length) && decide (0 < position)
    if ok then do
      let cur ← rangeQuery t f.processed position position
      let diff ← t.rev value cur
      if t.truthy diff then .ok ({ f with processed := updateCells t f.processed position diff }, ok)
      else .ok (f, ok)
    else .ok (f, ok)

/-- structures/fenwick_tree.h:136-141 `resize` (downsizing only). -/
def Tree.resize {T} (f : Tree T) (size : Nat) : Tree T :=
  if size < f.processed.length then { f with processed := f.processed.take size } else f

/-- structures/fenwick_tree.h:127 `size`. -/
def Tree.size {T} (f : Tree T) : Nat := f.processed.length

/-- structures/fenwick_tree.h:107-121 `operator[]` / `at`. -/
def Tree.at {T} (f : Tree T) (position : Nat) : Res T := rdAt f.processed position

/-- structures/fenwick_tree.h:54-68 move construction / assignment from a *different* object: the pair is
(destination, source) afterwards.  A moved-from vector is empty. -/
def Tree.moveFrom {T} (source : Tree T) : Tree T × Tree T :=
  (⟨source.processed, source.built⟩, ⟨[], false⟩)

/-- structures/fenwick_tree.h:264-271 `_update` when the reference `value` refers to cell `q` of the tree itself
(as in `tree.update(p, tree[q])`): every step reads the *current* content of cell `q`. -/
def updateCellsAlias {T} (t : Transform T) (cells : List T) (position q : Nat) : Res (List T) :=
  if h : 0 < position ∧ position < cells.length ∧ position < W then do
    let value ← rd cells q
    updateCellsAlias t (cells.set position (t.op (cells[position]'h.2.1) value)) (nextUpdate position) q
  else .ok cells
termination_by if position = 0 then 0 else cells.length - position
decreasing_by
  have := nextUpdate_cases position h.1 h.2.2
  simp only [List.length_set]
  split <;> split <;> omega

/-- structures/fenwick_tree.h:89-99 `update(position, tree[q])` with the reference returned by `operator[]`
(l.107-110, throws when `q` is out of range). -/
def Tree.updateAlias {T} (t : Transform T) (f : Tree T) (position q : Nat) : Res (Tree T × Bool) := do
  let value ← f.at q
  if !f.built then .exc .notBuilt
  else
    let ok := decide (position < f.processed.length)
    if ok && t.truthy value then do
      let cells ← updateCellsAlias t f.processed position q
      .ok ({ f with processed := cells }, ok)
    else .ok (f, ok)

/-! ### The transforms of the library -/

/-- tools/math_operation.h:21-61 `sum_t` with `subtraction_t` as reverse. -/
def sumT (T : Type) [Add T] [Sub T] [Zero T] [DecidableEq T] : Transform T where
  op := (· + ·)
  rev a b := .ok (a - b)
  null := 0
  truthy x := decide (x ≠ 0)
  zero := 0

/-- tools/math_operation.h:68-112 `multiplication_t` over a signed integer type, with `division_t` as reverse:
C++ division truncates toward zero, division by zero is UB. -/
def mulT : Transform Int where
  op := (· * ·)
  rev a b := if b = 0 then .ub else .ok (a.tdiv b)
  null := 1
  truthy x := decide (x ≠ 0)
  zero := 0

end Verif.Fenwick
