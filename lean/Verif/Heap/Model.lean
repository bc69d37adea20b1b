import Verif.Common

/-!
Model of structures/heap.h (`heap_t`, a `std::vector` with binary-heap index arithmetic).

A heap is the list of its elements.  `at` throws, see `rdAt`.  Positions are natural numbers; `leftW`/`rightW` are the same
index functions with the 64-bit wrap-around of `size_t`.  Growth (`resize`) appends the default value `d` of `T`.
-/

namespace Verif.Heap
variable {α : Type}

/-- heap.h:23-26 `left_child_of`. -/
def leftOf (pos : Nat) : Nat := if pos ≠ 0 then 2 * pos + 1 else 1

/-- heap.h:28-31 `right_child_of`. -/
def rightOf (pos : Nat) : Nat := if pos ≠ 0 then 2 * pos + 2 else 2

/-- heap.h:33-36 `parent_of`. -/
def parentOf (pos : Nat) : Nat := if pos ≠ 0 then (pos - 1) / 2 else pos

/-- heap.h:23-26 with `size_t` arithmetic. -/
def leftW (pos : Nat) : Nat := if pos ≠ 0 then (pos * 2 % W + 1) % W else 1

/-- heap.h:28-31 with `size_t` arithmetic. -/
def rightW (pos : Nat) : Nat := if pos ≠ 0 then (pos * 2 % W + 2) % W else 2

/-- Checked write `this->at(i) = x`. -/
def wrAt (h : List α) (i : Nat) (x : α) : Res (List α) :=
  if i < h.length then .ok (h.set i x) else .exc .outOfRange

/-- heap.h:47-55 `swap`; a moved-from element is overwritten before it is read. -/
def swap (h : List α) (pos : Nat) : Res (List α) := do
  let parent := parentOf pos
  if pos ≠ parent then
    let temp ← rdAt h pos
    let x ← rdAt h parent
    let h ← wrAt h pos x
    wrAt h parent temp
  else .ok h

/-- heap.h:61-67 `swap_with_left_child`. -/
def swapLeft (h : List α) (pos : Nat) : Res (List α) :=
  let left := leftOf pos
  if left < h.length then swap h left else .ok h

/-- heap.h:105-111 `swap_with_right_child`. -/
def swapRight (h : List α) (pos : Nat) : Res (List α) :=
  let right := rightOf pos
  if right < h.length then swap h right else .ok h

/-- `std::vector::resize`. -/
def resize (d : α) (h : List α) (n : Nat) : List α :=
  h.take n ++ List.replicate (n - h.length) d

/-- heap.h:77-84 `set_left`. -/
def setLeft (d : α) (h : List α) (pos : Nat) (v : α) : Res (List α) :=
  let left := leftOf pos
  let h := if left > h.length then resize d h (rightOf left) else h
  wrAt h left v

/-- heap.h:86-93 `set_right`. -/
def setRight (d : α) (h : List α) (pos : Nat) (v : α) : Res (List α) :=
  let right := rightOf pos
  let h := if right > h.length then resize d h (rightOf right) else h
  wrAt h right v

/-- heap.h:95-98 `set_root`. -/
def setRoot (h : List α) (v : α) : Res (List α) := wrAt h 0 v

/-- heap.h:116-119 `head` (non-const: `at(0)`). -/
def head (h : List α) : Res α := rdAt h 0

/-- heap.h:125-128 `head` (const: `front()`, undefined on an empty vector). -/
def headConst (h : List α) : Res α := rd h 0

/-- heap.h:133-144 `tail`: `back()`, undefined on an empty vector. -/
def tail (h : List α) : Res α :=
  match h.getLast? with
  | some x => .ok x
  | none => .ub

end Verif.Heap
