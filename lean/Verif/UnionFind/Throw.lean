import Verif.UnionFind.Props

/-!
union_find.h and union_set.h when an allocation, or the copy, hash or comparison of an element, throws. The calls that add something are the only ones
that allocate; the other calls on `union_find_t` throw only from the look-ups in `_items_id` that come before any change.
-/

namespace Verif.UnionFind

/-- Where `union_find_t::insert` (union_find.h:54-66) can throw. -/
inductive InsertPt where
  | lookup  -- :55 `exists(elem)`: hash or comparison
  | ids     -- :58 `_items_id[elem]`: node allocation, hash, comparison or copy of the element; no effect when it throws
  | ranks   -- :59 `_ranks.push_back(1)`: allocation; no effect on `_ranks` when it throws
  | items   -- :60 `_items.push_back({ elem, id })`: copy of the element, allocation; no effect on `_items` when it throws
  deriving DecidableEq, Repr

/-- union_find.h:54-66 `insert`; `p` is the point that throws. The second component is `none` when the call throws. -/
def UF.insertT {T : Type} [DecidableEq T] (p : Option InsertPt) (s : UF T) (elem : T) : UF T × Option Bool :=
  if p = some .lookup then (s, none)
  else if s.exists elem then (s, some false)
  else
    let id := s.core.parent.length
    if p = some .ids then (s, none)
    else
      let s := { s with ids := fun k => if k = elem then some id else s.ids k }
      if p = some .ranks then (s, none)
      else
        let s := { s with core := { s.core with rank := s.core.rank ++ [1] } }
        if p = some .items then (s, none)
        else ({ s with
          core := { s.core with parent := s.core.parent ++ [id] }
          cnt := ⟨(s.cnt.disjoint + 1) % W, (s.cnt.acorn + 1) % W⟩ }, some true)

/-- Where `union_set_t::resize` (union_set.h:43-54) can throw. -/
inductive ResizePt where
  | items  -- :47 `_items.resize(size)`: allocation; no effect when it throws
  | ranks  -- :48 `_ranks.resize(size)`
  deriving DecidableEq, Repr

/-- union_set.h:43-54 `resize`. The new items are zero before `insert` is called for them. -/
def USet.resizeT (p : Option ResizePt) (s : USet) (size : Nat) : USet × Option Bool :=
  let old := s.core.parent.length
  if old < size then
    if p = some .items then (s, none)
    else
      let s := { s with core := { s.core with parent := s.core.parent ++ List.replicate (size - old) 0 } }
      if p = some .ranks then (s, none)
      else
        let s := { s with core := { s.core with rank := s.core.rank ++ List.replicate (size - old) 0 } }
        ((List.range' old (size - old)).foldl (fun s ii => (s.insert ii).1) s, some true)
  else (s, some false)

/-- Without exceptions these are the functions of the model. -/
theorem insertT_none {T : Type} [DecidableEq T] (s : UF T) (x : T) : s.insertT none x = ((s.insert x).1, some (s.insert x).2) := by
  unfold UF.insertT UF.insert
  by_cases h : s.exists x = true <;> simp [h]

theorem resizeT_none (s : USet) (n : Nat) : s.resizeT none n = ((s.resize n).1, some (s.resize n).2) := by
  unfold USet.resizeT USet.resize
  by_cases h : s.core.parent.length < n <;> simp [h]

/-! ### C154 -/

/-- **C154, full statement.** A call that throws has no effect. -/
def C154_statement : Prop :=
  (∀ (T : Type) [DecidableEq T] (s : UF T) (K : List T) (E : List (T × T)), UFReach s K E → ∀ p x, (s.insertT p x).2 = none → (s.insertT p x).1 = s) ∧
  (∀ s n E, Reach s n E → ∀ p m, (s.resizeT p m).2 = none → (s.resizeT p m).1 = s)

/-- **C154, partial.** `insert` has no effect when the look-up or the new map entry throws; `resize` has none when the first vector throws. Missing: the
other points. -/
theorem C154_strong_partial {T : Type} [DecidableEq T] (s : UF T) (x : T) (p : InsertPt) (h : p = .lookup ∨ p = .ids)
    (u : USet) (m : Nat) :
    ((s.insertT (some p) x).2 = none → (s.insertT (some p) x).1 = s) ∧
    ((u.resizeT (some .items) m).2 = none → (u.resizeT (some .items) m).1 = u) := by
  constructor
  · rcases h with rfl | rfl <;> unfold UF.insertT <;> by_cases hx : s.exists x = true <;> simp [hx]
  · unfold USet.resizeT
    by_cases hm : u.core.parent.length < m <;> simp [hm]

/-- Histories in which calls throw at the harmless points only: everything that C18 says about union_find stays true. -/
inductive UFReachT {T : Type} [DecidableEq T] : UF T → List T → List (T × T) → Prop
  | of {s K E} : UFReach s K E → UFReachT s K E
  | throw {s K E} (p : InsertPt) (x : T) : p = .lookup ∨ p = .ids → (s.insertT (some p) x).2 = none → UFReachT s K E →
      UFReachT (s.insertT (some p) x).1 K E
  | insert {s K E} (x : T) (h : K.length + 1 < W) : UFReachT s K E → UFReachT (s.insert x).1 (if x ∈ K then K else x :: K) E
  | join {s K E s' res} (o1 o2 : Bool) (a b : T) : UFReachT s K E → s.joinSets o1 o2 a b = .ok (s', res) →
      UFReachT s' K (if a ∈ K ∧ b ∈ K then (a, b) :: E else E)
  | same {s K E s' res} (o : Bool) (a b : T) : UFReachT s K E → s.sameSetElems o a b = .ok (s', res) → UFReachT s' K E
  | find {s K E s' res} (a : T) : UFReachT s K E → s.findByElem a = .ok (s', res) → UFReachT s' K E
  | sizeOf {s K E s' res} (a : T) : UFReachT s K E → s.sizeOfElem a = .ok (s', res) → UFReachT s' K E

theorem C154_history_partial {T : Type} [DecidableEq T] {s : UF T} {K : List T} {E : List (T × T)} (h : UFReachT s K E) : UFReach s K E := by
  induction h with
  | of h => exact h
  | @throw s K E p x hp ht _ ih => rw [(C154_strong_partial s x p hp ⟨⟨[], [], true⟩, ⟨0, 0⟩⟩ 0).1 ht]; exact ih
  | insert x hW _ ih => exact .insert x hW ih
  | join o1 o2 a b _ e ih => exact .join o1 o2 a b ih e
  | same o a b _ e ih => exact .same o a b ih e
  | find a _ e ih => exact .find a ih e
  | sizeOf a _ e ih => exact .sizeOf a ih e

/-- C154 fails for `insert` at the other points, for every element that is new: it is then in the map but has no item. -/
theorem C154_leftover {T : Type} [DecidableEq T] (s : UF T) (x : T) (p : InsertPt) (hx : s.exists x = false) (hp : p = .ranks ∨ p = .items) :
    (s.insertT (some p) x).2 = none ∧ (s.insertT (some p) x).1.exists x = true ∧
      (s.insertT (some p) x).1.core.parent = s.core.parent := by
  have hx' : s.ids x = none := by simpa [UF.exists] using hx
  rcases hp with rfl | rfl <;> simp [UF.insertT, hx', UF.exists]

/-- What remains is dangerous: the next `find_by_elem` of the element reads beyond the end of `_items`. -/
theorem C154_counterexample_find {T : Type} [DecidableEq T] (s : UF T) (x : T) (p : InsertPt) (hx : s.exists x = false) (hp : p = .ranks ∨ p = .items) :
    (s.insertT (some p) x).1.findByElem x = .ub := by
  have hx' : s.ids x = none := by simpa [UF.exists] using hx
  rcases hp with rfl | rfl <;>
    simp [UF.insertT, hx', UF.exists, UF.findByElem, UF.idAt, UnionFind.find, findFuel, rd]

/-- C154 fails: the insertion of 20 throws; when 30 is inserted afterwards, 20 and 30 are in the same set although nothing was joined, and the set has one
element. -/
theorem C154_counterexample : ¬ C154_statement ∧
    ∃ s1 s2 : UF Nat, s1 = ((((UF.new true).insert 10).1.insertT (some .ranks) 20).1.insert 30).1 ∧
      s1.sameSetElems true 20 30 = .ok (s2, true) ∧ s1.cnt.disjoint = 2 ∧ s1.sizeOfElem 20 = .ok (s1, 1) := by
  constructor
  · intro h
    have h1 := h.1 Nat (UF.new true) [] [] (.new true) (some .ranks) 20 (by decide)
    have h2 := congrArg (fun s : UF Nat => s.exists 20) h1
    exact absurd h2 (by decide)
  · exact ⟨_, _, rfl, rfl, rfl, rfl⟩

/-- C154 fails for `resize` of `union_set_t`: the new sets exist but have no rank, so that `find` reads beyond the end of `_ranks`. -/
theorem C154_counterexample_resize : Reach ex0 3 [] ∧ (ex0.resizeT (some .ranks) 5).2 = none ∧
    (ex0.resizeT (some .ranks) 5).1.exists 4 = true ∧ (ex0.resizeT (some .ranks) 5).1.find 4 = .ub :=
  ⟨Reach.new 3 true (by decide), by decide, by decide, by decide⟩

example : (((UF.new true : UF Nat).insert 10).1.insertT (some .ids) 20).1.exists 20 = false := by decide
example : (((UF.new true : UF Nat).insert 10).1.insertT (some .items) 10).2 = some false := by decide

end Verif.UnionFind
