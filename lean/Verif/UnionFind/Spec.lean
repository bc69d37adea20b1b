import Mathlib.Logic.Relation

/-!
Specification of union-find: elements, the pairs joined so far, and connectivity.
-/

namespace Verif.UnionFind.Spec

/-- Connectivity: the equivalence closure of the joined pairs. -/
def Conn {α : Type} (edges : List (α × α)) (a b : α) : Prop :=
  Relation.EqvGen (fun x y => (x, y) ∈ edges) a b

/-- `k` is the number of elements of `elems` (a predicate) connected to `a`. -/
def ClassSize {α : Type} (elem : α → Prop) (edges : List (α × α)) (a : α) (k : Nat) : Prop :=
  ∃ l : List α, l.Nodup ∧ (∀ x, x ∈ l ↔ elem x ∧ Conn edges x a) ∧ l.length = k

/-- `k` is the number of connectivity classes of the elements: there is a list of `k` elements, no two of them
connected, such that every element is connected to one of them. -/
def ClassCount {α : Type} (elem : α → Prop) (edges : List (α × α)) (k : Nat) : Prop :=
  ∃ l : List α, l.Pairwise (fun x y => ¬ Conn edges x y) ∧ (∀ x ∈ l, elem x) ∧
    (∀ x, elem x → ∃ y ∈ l, Conn edges x y) ∧ l.length = k

end Verif.UnionFind.Spec
