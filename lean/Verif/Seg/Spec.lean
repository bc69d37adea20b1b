import Verif.Seg.Model

/-!
Specification vocabulary for the segment tree: a plain list of element values, the left-to-right join of a slice, updates
applied pointwise, and the laws a lazy transform must satisfy.
-/

namespace Verif.Seg.Spec
variable {T V U : Type}

/-- Left-to-right join of a list (`d` for the empty list, which no query asks for). -/
def joinAll (join : V → V → V) (d : V) : List V → V
  | [] => d
  | x :: xs => xs.foldl join x

/-- The elements at positions `s ≤ p ≤ e`. -/
def slice (xs : List V) (s e : Nat) : List V := (xs.drop s).take (e + 1 - s)

/-- The update `f` (a function of position and value) applied at positions `s ≤ p ≤ e`. -/
def update (f : Nat → V → V) (xs : List V) (s e : Nat) : List V :=
  xs.mapIdx fun p v => if s ≤ p ∧ p ≤ e then f p v else v

/-- Smaller bound, clamped to the last element of `n`. -/
def lo (n a b : Nat) : Nat := min (min a b) (n - 1)

/-- Larger bound, clamped to the last element of `n`. -/
def hi (n a b : Nat) : Nat := min (max a b) (n - 1)

/-- The action of a pending update. -/
def pend (X : Transform T V U) (act : U → Nat → Nat → V → V) (w : U) (a b : Nat) (v : V) : V :=
  if X.has w then act w a b v else v

/-- Laws of a transform for updates satisfying `P`: `act u a b v` is the value of segment `[a, b]`, valued `v`, after `u`.
The laws about `apply` and `propagate` are only needed for updates that "are" updates (`has`). -/
structure Lawful (X : Transform T V U) (P : U → Prop) (act : U → Nat → Nat → V → V) : Prop where
  assoc : ∀ x y z, X.join (X.join x y) z = X.join x (X.join y z)
  none_has : X.has X.none = false
  none_P : P X.none
  /-- acting on a joined segment is acting on both parts -/
  act_join : ∀ u a b c x y, P u → X.has u = true → a ≤ b → b < c →
    act u a c (X.join x y) = X.join (act u a b x) (act u (b + 1) c y)
  /-- `apply` keeps the interval and index and acts on the value -/
  apply_value : ∀ n u, P u → X.has u = true → (X.apply n u).start = n.start ∧ (X.apply n u).stop = n.stop ∧
    (X.apply n u).index = n.index ∧ (X.apply n u).value = act u n.start n.stop n.value
  /-- `apply` on an inner node remembers the update, after what was pending (asked only where the tree calls it) -/
  apply_lazy : ∀ n u, P u → X.has u = true → P n.lazy → n.start < n.stop →
    (X.has n.lazy = false ∨ X.criteria n = true) → P (X.apply n u).lazy ∧
    ∀ p v, n.start ≤ p → p ≤ n.stop → pend X act (X.apply n u).lazy p p v = act u p p (pend X act n.lazy p p v)
  /-- `propagate` clears the node and acts on both children -/
  propagate : ∀ n l r, P n.lazy → X.has n.lazy = true → n.start < n.stop →
    l.start = n.start → l.stop = n.center → r.start = n.center + 1 → r.stop = n.stop →
    ∃ n' l' r', X.propagate n l r = (n', l', r') ∧
      (n'.start = n.start ∧ n'.stop = n.stop ∧ n'.index = n.index ∧ P n'.lazy ∧
        ∀ p v, pend X act n'.lazy p p v = v) ∧
      ∀ c c', (c = l ∧ c' = l') ∨ (c = r ∧ c' = r') →
        c'.start = c.start ∧ c'.stop = c.stop ∧ c'.index = c.index ∧
        c'.value = act n.lazy c.start c.stop c.value ∧
        (c.start < c.stop → P c.lazy → P c'.lazy ∧ ∀ p v, c.start ≤ p → p ≤ c.stop →
          pend X act c'.lazy p p v = act n.lazy p p (pend X act c.lazy p p v))

/-- The specification of a history of calls on the element list. -/
def specRun (X : Transform T V U) (act : U → Nat → Nat → V → V) : List V → List (Op T U) → List V × List (Option V)
  | xs, [] => (xs, [])
  | xs, .query a b :: ops =>
    let r := specRun X act xs ops
    (r.1, some (joinAll X.join X.dflt (slice xs (lo xs.length a b) (hi xs.length a b))) :: r.2)
  | xs, .update a b u :: ops =>
    let xs' := if X.has u then update (fun p v => act u p p v) xs (lo xs.length a b) (hi xs.length a b) else xs
    let r := specRun X act xs' ops
    (r.1, some (joinAll X.join X.dflt (slice xs' (lo xs.length a b) (hi xs.length a b))) :: r.2)
  | _, .rebuild input number :: ops =>
    let r := specRun X act ((input.take number).mapIdx fun p x => X.build x p) ops
    (r.1, none :: r.2)

end Verif.Seg.Spec
