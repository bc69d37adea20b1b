import Verif.Fenwick.Refine

/-!
Fenwick trees whose element type or allocator throws (structures/fenwick_tree.h:38-321).

* Each call gets a number `k` of operations that succeed; the next one after them throws.  The operations that may throw are
  copies and constructions of elements, the operation and its reverse, and allocations.  `transform(a, b)` and the assignment of
  its result are one operation: an assignment of an element that throws leaves the element unchanged.
* `std::vector::assign` and the copy assignment leave the vector unchanged when the allocation or the copies into new memory
  throw; when the capacity suffices (`room`) they overwrite the elements one after the other.
* The conversion of an element to `bool`, moves of vectors and shrinking do not throw.
-/

namespace Verif.Fenwick
open Spec (Op Val put)
variable {T : Type}

/-- A computation that does not change the tree, during which at most `k` operations succeed; `none` is an exception. -/
def Th (α : Type) : Type := Nat → Res (Option (Nat × α))

namespace Th
variable {α β : Type}

instance : Monad Th where
  pure a := fun k => .ok (some (k, a))
  bind m f := fun k => do
    match ← m k with
    | some (k', a) => f a k'
    | none => .ok none

/-- An operation that may throw. -/
def tick : Th Unit
  | 0 => .ok none
  | k + 1 => .ok (some (k, ()))

def lift (r : Res α) : Th α := fun k => do
  let a ← r
  .ok (some (k, a))

end Th
open Th

/-- structures/fenwick_tree.h:284-286, the loop of `_range_query(position)`. -/
def queryLoopT (t : Transform T) (cells : List T) (index : Nat) (value : T) : Th T :=
  let next := nextQuery index
  if h : 0 < next ∧ next < index then do
    let c ← lift (rd cells next)
    tick
    queryLoopT t cells next (t.op c value)
  else pure value
termination_by index
decreasing_by exact h.2

/-- structures/fenwick_tree.h:279-288 `_range_query(position)`. -/
def prefixQueryT (t : Transform T) (cells : List T) (position : Nat) : Th T := do
  let v ← lift (rd cells position)
  tick
  queryLoopT t cells position v

/-- structures/fenwick_tree.h:298-321 `_range_query(start, end)`. -/
def rangeQueryT (t : Transform T) (cells : List T) (start stop : Nat) : Th T := do
  let discarded ← (if start ≤ 1 then (do tick; pure t.zero) else prefixQueryT t cells (start - 1) : Th T)
  let value ← prefixQueryT t cells stop
  tick
  (if t.truthy discarded then lift (t.rev value discarded) else pure value : Th T)

/-- structures/fenwick_tree.h:264-271 `_update`: the number of operations left, or `none` for an exception, and the cells. -/
def updateCellsT (t : Transform T) : Nat → List T → Nat → T → Option Nat × List T
  | 0, cells, position, _ => if 0 < position ∧ position < cells.length ∧ position < W then (none, cells) else (some 0, cells)
  | k + 1, cells, position, value =>
    if h : 0 < position ∧ position < cells.length ∧ position < W then
      updateCellsT t k (cells.set position (t.op (cells[position]'h.2.1) value)) (nextUpdate position) value
    else (some (k + 1), cells)

/-- structures/fenwick_tree.h:251-253, the loop of `_build`. -/
def buildLoopT (t : Transform T) : Nat → List T → Nat → List T → Option Nat × List T
  | k, cells, _, [] => (some k, cells)
  | k, cells, ii, x :: rest =>
    match updateCellsT t k cells ii x with
    | (none, cells) => (none, cells)
    | (some k, cells) => buildLoopT t k cells (ii + 1) rest

/-- The first elements are overwritten by `new`, one after the other. -/
def overwriteT (k : Nat) (new cells : List T) : Option Nat × List T :=
  if new.length ≤ k then (some (k - new.length), new ++ cells.drop new.length)
  else (none, new.take k ++ cells.drop k)

/-- `_processed` becomes `new`, longer than it was: in new memory, or (`room`) by overwriting and then appending. -/
def growT (room : Bool) (k : Nat) (new cells : List T) : Option Nat × List T :=
  if room then
    match overwriteT k (new.take cells.length) cells with
    | (none, cells) => (none, cells)
    | (some 0, cells) => (none, cells)
    | (some (k + 1), _) => (some k, new)
  else
    match k with
    | 0 => (none, cells)
    | k + 1 => (some k, new)

/-- structures/fenwick_tree.h:236-256 `_build`; `false` is an exception. -/
def Tree.buildT (t : Transform T) (k : Nat) (room : Bool) (f : Tree T) (input : List T) (numberOfElements : Nat) :
    Bool × Tree T :=
  let size := if numberOfElements < input.length then numberOfElements + 1 else input.length + 1
  let r :=
    if f.processed.length < size then growT room k (List.replicate size t.null) f.processed
    else if f.built then overwriteT k (List.replicate size t.null) (f.processed.take size)
    else (some k, f.processed)
  match r with
  | (none, cells) => (false, { f with processed := cells })
  | (some k, cells) =>
    match buildLoopT t k cells 1 (input.take (size - 1)) with
    | (none, cells) => (false, { f with processed := cells })
    | (some _, cells) => (true, ⟨cells, true⟩)

/-- structures/fenwick_tree.h:89-99 `update`: the tree and the result (`none` for an exception of an element). -/
def Tree.updateT (t : Transform T) (k : Nat) (f : Tree T) (position : Nat) (value : T) : Tree T × Option (Res Bool) :=
  if !f.built then (f, some (.exc .notBuilt))
  else
    let ok := decide (position < f.processed.length)
    if ok && t.truthy value then
      match updateCellsT t k f.processed position value with
      | (none, cells) => ({ f with processed := cells }, none)
      | (some _, cells) => ({ f with processed := cells }, some (.ok ok))
    else (f, some (.ok ok))

/-- structures/fenwick_tree.h:166-172 `query`. -/
def Tree.queryT (t : Transform T) (k : Nat) (f : Tree T) (start stop : Nat) : Option (Res T) :=
  if !f.built then some (.exc .notBuilt)
  else
    let last := (f.processed.length + (W - 1)) % W
    match rangeQueryT t f.processed (min (min start stop) last) (min (max start stop) last) k with
    | .ok none => none
    | .ok (some (_, v)) => some (.ok v)
    | .exc e => some (.exc e)
    | .ub => some .ub

/-- structures/fenwick_tree.h:183-196 `set_value`. -/
def Tree.setValueT (t : Transform T) (k : Nat) (f : Tree T) (position : Nat) (value : T) : Tree T × Option (Res Bool) :=
  if !f.built then (f, some (.exc .notBuilt))
  else
    let ok := decide (position < f.processed.length) && decide (0 < position)
    if ok then
      let diff : Th T := do
        let cur ← rangeQueryT t f.processed position position
        tick
        lift (t.rev value cur)
      match diff k with
      | .ok none => (f, none)
      | .ok (some (k, diff)) =>
        if t.truthy diff then
          match updateCellsT t k f.processed position diff with
          | (none, cells) => ({ f with processed := cells }, none)
          | (some _, cells) => ({ f with processed := cells }, some (.ok ok))
        else (f, some (.ok ok))
      | .exc e => (f, some (.exc e))
      | .ub => (f, some .ub)
    else (f, some (.ok ok))

/-- `std::vector::operator=`: to more elements as `growT`; else the elements are assigned in place (`room`), or made elsewhere
beforehand. -/
def copyCellsT (k : Nat) (room : Bool) (cells source : List T) : Option Nat × List T :=
  if cells.length < source.length then growT room k source cells
  else if room then
    match overwriteT k source cells with
    | (none, cells) => (none, cells)
    | (some k, _) => (some k, source)
  else match k with
    | 0 => (none, cells)
    | k + 1 => (some k, source)

/-- structures/fenwick_tree.h:71, the defaulted copy assignment: the vector, then the flag. -/
def Tree.copyT (k : Nat) (room : Bool) (f source : Tree T) : Bool × Tree T :=
  match copyCellsT k room f.processed source.processed with
  | (none, cells) => (false, { f with processed := cells })
  | (some _, cells) => (true, ⟨cells, source.built⟩)

/-- structures/fenwick_tree.h:38-196: one call on the object, during which at most `k` operations succeed. -/
def stepT (t : Transform T) (k : Nat) (room : Bool) (σ : Store T) : Op T → Store T × Option (Res (Val T))
  | .rebuild i input n =>
    let (done, f) := (σ i).buildT t k room input n
    (put σ i f, if done then some (.ok .unit) else none)
  | .update i p v =>
    let (f, r) := (σ i).updateT t k p v
    (put σ i f, r.map (Val.bool <$> ·))
  | .setValue i p v =>
    let (f, r) := (σ i).setValueT t k p v
    (put σ i f, r.map (Val.bool <$> ·))
  | .query i x y => (σ, ((σ i).queryT t k x y).map (Val.value <$> ·))
  | .resize i size => (put σ i ((σ i).resize size), some (.ok .unit))
  | .copy dst src =>
    if dst = src then (σ, some (.ok .unit))
    else
      let (done, f) := Tree.copyT k room (σ dst) (σ src)
      (put σ dst f, if done then some (.ok .unit) else none)
  | .move dst src => (put (put σ dst (σ src).moveFrom.1) src (σ src).moveFrom.2, some (.ok .unit))

/-- A history; for each call the number of operations that succeed, and whether there is room. -/
def runT (t : Transform T) (σ : Store T) : List (Op T × Nat × Bool) → Store T × List (Option (Res (Val T)))
  | [] => (σ, [])
  | (o, k, room) :: os =>
    let (σ', r) := stepT t k room σ o
    let (σ'', rs) := runT t σ' os
    (σ'', r :: rs)

/-! ### Lemmas -/

/-- The computation needs `c` operations and returns `a`. -/
def Runs {α : Type} (m : Th α) (c : Nat) (a : α) : Prop := ∀ k, m k = if c ≤ k then .ok (some (k - c, a)) else .ok none

theorem runs_pure {α : Type} (a : α) : Runs (pure a) 0 a := fun k => by simp; rfl

theorem runs_tick : Runs tick 1 () := fun k => by cases k <;> simp [tick]

theorem runs_lift {α : Type} {r : Res α} {a : α} (h : r = .ok a) : Runs (lift r) 0 a := fun k => by subst h; simp [lift]

theorem runs_bind {α β : Type} {m : Th α} {f : α → Th β} {c d : Nat} {a : α} {b : β} (h1 : Runs m c a) (h2 : Runs (f a) d b) :
    Runs (m >>= f) (c + d) b := fun k => by
  show (do match ← m k with | some (k', a) => f a k' | none => .ok none) = _
  rw [h1 k]
  by_cases h : c ≤ k
  · rw [if_pos h]
    simp only [Res.bind_ok]
    rw [h2 (k - c)]
    by_cases h' : c + d ≤ k
    · rw [if_pos h', if_pos (by omega), show k - c - d = k - (c + d) by omega]
    · rw [if_neg h', if_neg (by omega)]
  · rw [if_neg h, if_neg (by omega)]
    rfl

theorem queryLoopT_runs (t : Transform T) (cells : List T) (i : Nat) :
    ∀ (v : T) {w : T}, queryLoop t cells i v = .ok w → ∃ c, Runs (queryLoopT t cells i v) c w := by
  induction i using Nat.strongRecOn with
  | _ i ih =>
    intro v w H
    rw [queryLoop] at H
    rw [queryLoopT]
    by_cases h : 0 < nextQuery i ∧ nextQuery i < i
    · simp only [dif_pos h] at H ⊢
      obtain ⟨c, e, H⟩ := Res.bind_eq_ok.1 H
      obtain ⟨n, r⟩ := ih _ h.2 _ H
      exact ⟨_, runs_bind (runs_lift e) (runs_bind runs_tick r)⟩
    · simp only [dif_neg h] at H ⊢
      cases H
      exact ⟨0, runs_pure _⟩

theorem prefixQueryT_runs (t : Transform T) (cells : List T) (p : Nat) {w : T} (H : prefixQuery t cells p = .ok w) :
    ∃ c, Runs (prefixQueryT t cells p) c w := by
  obtain ⟨v, e, H⟩ := Res.bind_eq_ok.1 H
  obtain ⟨n, r⟩ := queryLoopT_runs t cells p v H
  exact ⟨_, runs_bind (runs_lift e) (runs_bind runs_tick r)⟩

theorem rangeQueryT_runs (t : Transform T) (cells : List T) (s e : Nat) {w : T} (H : rangeQuery t cells s e = .ok w) :
    ∃ c, Runs (rangeQueryT t cells s e) c w := by
  have H' : ((if s ≤ 1 then .ok t.zero else prefixQuery t cells (s - 1) : Res T) >>= fun d => prefixQuery t cells e >>= fun v =>
      if t.truthy d then t.rev v d else .ok v) = .ok w := by
    unfold rangeQuery at H
    by_cases h : s ≤ 1
    · rw [if_pos h] at H ⊢; exact H
    · rw [if_neg h] at H ⊢; exact H
  obtain ⟨d, e1, H⟩ := Res.bind_eq_ok.1 H'
  obtain ⟨v, e2, H⟩ := Res.bind_eq_ok.1 H
  obtain ⟨c2, r2⟩ := prefixQueryT_runs t cells e e2
  have r1 : ∃ c, Runs (if s ≤ 1 then (do tick; pure t.zero) else prefixQueryT t cells (s - 1) : Th T) c d := by
    by_cases h : s ≤ 1
    · rw [if_pos h] at e1 ⊢
      cases e1
      exact ⟨_, runs_bind runs_tick (runs_pure _)⟩
    · rw [if_neg h] at e1 ⊢
      exact prefixQueryT_runs t cells _ e1
  obtain ⟨c1, r1⟩ := r1
  have r3 : Runs (if t.truthy d then lift (t.rev v d) else pure v : Th T) 0 w := by
    by_cases h : t.truthy d = true
    · rw [if_pos h] at H ⊢; exact runs_lift H
    · rw [if_neg h] at H ⊢; cases H; exact runs_pure _
  exact ⟨_, runs_bind r1 (runs_bind r2 (runs_bind runs_tick r3))⟩

/-- An interrupted `_update`: there is a cell `j` on its way from which it could be completed. -/
theorem updateCellsT_spec (t : Transform T) (k : Nat) : ∀ (cells : List T) (p : Nat) (v : T),
    (∀ k', (updateCellsT t k cells p v).1 = some k' → (updateCellsT t k cells p v).2 = updateCells t cells p v) ∧
    ((updateCellsT t k cells p v).1 = none → ∃ j, p ≤ j ∧ 0 < j ∧ j < cells.length ∧
      (j = p → (updateCellsT t k cells p v).2 = cells) ∧
      updateCells t (updateCellsT t k cells p v).2 j v = updateCells t cells p v) ∧
    (updateCellsT t k cells p v).2.length = cells.length ∧ (updateCellsT t k cells p v).2[0]? = cells[0]? := by
  induction k with
  | zero =>
    intro cells p v
    unfold updateCellsT
    by_cases h : 0 < p ∧ p < cells.length ∧ p < W
    · rw [if_pos h]
      exact ⟨fun k' h' => by (cases h'), fun _ => ⟨p, Nat.le_refl _, h.1, h.2.1, fun _ => rfl, rfl⟩, rfl, rfl⟩
    · rw [if_neg h]
      exact ⟨fun k' _ => by rw [updateCells, dif_neg h], fun h' => by (cases h'), rfl, rfl⟩
  | succ k ih =>
    intro cells p v
    unfold updateCellsT
    by_cases h : 0 < p ∧ p < cells.length ∧ p < W
    · rw [dif_pos h]
      obtain ⟨i1, i2, i3, i4⟩ := ih (cells.set p (t.op (cells[p]'h.2.1) v)) (nextUpdate p) v
      have e : updateCells t cells p v = updateCells t (cells.set p (t.op (cells[p]'h.2.1) v)) (nextUpdate p) v := by
        rw [updateCells, dif_pos h]
      rw [e]
      refine ⟨i1, fun hn => ?_, by rw [i3, List.length_set], by rw [i4, List.getElem?_set_ne (by omega)]⟩
      obtain ⟨j, j1, j2, j3, j4, j5⟩ := i2 hn
      rw [List.length_set] at j3
      have hlt : p < j := by
        rcases nextUpdate_cases p h.1 h.2.2 with ⟨_, hgt⟩ | ⟨e0, _⟩
        · omega
        · -- the walk ended: it cannot have thrown
          exfalso
          rw [e0] at hn
          cases k <;> simp [updateCellsT] at hn
      exact ⟨j, by omega, j2, j3, fun e => by omega, j5⟩
    · rw [dif_neg h]
      exact ⟨fun k' _ => by rw [updateCells, dif_neg h], fun h' => by (cases h'), rfl, rfl⟩

/-- With enough operations `_update` completes. -/
theorem updateCellsT_enough (t : Transform T) (cells : List T) (p : Nat) (v : T) :
    ∃ c, ∀ k, c ≤ k → updateCellsT t k cells p v = (some (k - c), updateCells t cells p v) := by
  fun_induction updateCells t cells p v with
  | case1 cells p h ih =>
    obtain ⟨c, ih⟩ := ih
    refine ⟨c + 1, fun k hk => ?_⟩
    obtain ⟨k, rfl⟩ : ∃ k', k = k' + 1 := ⟨k - 1, by omega⟩
    rw [updateCellsT, dif_pos h, ih k (by omega), show k + 1 - (c + 1) = k - c by omega]
  | case2 cells p h =>
    refine ⟨0, fun k _ => ?_⟩
    cases k with
    | zero => rw [updateCellsT, if_neg h]
    | succ k => rw [updateCellsT, dif_neg h]; rfl

theorem buildLoopT_spec (t : Transform T) (xs : List T) : ∀ (k : Nat) (cells : List T) (ii : Nat),
    (∀ k', (buildLoopT t k cells ii xs).1 = some k' → (buildLoopT t k cells ii xs).2 = buildLoop t cells ii xs) ∧
    (buildLoopT t k cells ii xs).2.length = cells.length ∧ (buildLoopT t k cells ii xs).2[0]? = cells[0]? := by
  induction xs with
  | nil => intro k cells ii; exact ⟨fun _ _ => rfl, rfl, rfl⟩
  | cons x xs ih =>
    intro k cells ii
    obtain ⟨u1, -, u3, u4⟩ := updateCellsT_spec t k cells ii x
    unfold buildLoopT
    generalize hu : updateCellsT t k cells ii x = u at u1 u3 u4
    obtain ⟨_ | k', c⟩ := u
    · exact ⟨fun k' h => by (cases h), u3, u4⟩
    · obtain ⟨i1, i2, i3⟩ := ih k' c (ii + 1)
      have e := u1 k' rfl
      simp only at e u3 u4 ⊢
      refine ⟨fun k2 h => ?_, by rw [i2, u3], by rw [i3, u4]⟩
      rw [i1 k2 h, e]
      rfl

theorem buildLoopT_enough (t : Transform T) (xs : List T) : ∀ (cells : List T) (ii : Nat),
    ∃ c, ∀ k, c ≤ k → buildLoopT t k cells ii xs = (some (k - c), buildLoop t cells ii xs) := by
  induction xs with
  | nil => intro cells ii; exact ⟨0, fun k _ => rfl⟩
  | cons x xs ih =>
    intro cells ii
    obtain ⟨c1, e1⟩ := updateCellsT_enough t cells ii x
    obtain ⟨c2, e2⟩ := ih (updateCells t cells ii x) (ii + 1)
    refine ⟨c1 + c2, fun k hk => ?_⟩
    rw [buildLoopT, e1 k (by omega)]
    simp only
    rw [e2 (k - c1) (by omega), show k - c1 - c2 = k - (c1 + c2) by omega]
    rfl

end Verif.Fenwick
