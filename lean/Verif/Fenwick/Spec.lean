import Verif.Common

/-!
Independent specification of the Fenwick tree: a plain list of elements.
Positions are 1-based.
-/

namespace Verif.Fenwick.Spec

/-- Elements at the 1-based positions `lo … hi`. -/
def positions {T} (a : List T) (lo hi : Nat) : List T := (a.take hi).drop (lo - 1)

/-- The elements addressed by `query(x, y)`: the bounds in either order, each clamped to the number of elements,
and position 0 ignored. -/
def addressed {T} (a : List T) (x y : Nat) : List T :=
  positions a (max 1 (min (min x y) a.length)) (min (max x y) a.length)

/-- Sum of the elements addressed by `query(x, y)`. -/
def rangeSum {T} [Add T] [Zero T] (a : List T) (x y : Nat) : T := (addressed a x y).sum

/-- Operations on a family of trees (objects are numbered). -/
inductive Op (T : Type) where
  | rebuild (i : Nat) (input : List T) (numberOfElements : Nat)
  | update (i : Nat) (position : Nat) (value : T)
  | setValue (i : Nat) (position : Nat) (value : T)
  | query (i : Nat) (start stop : Nat)
  | resize (i : Nat) (size : Nat)
  | copy (dst src : Nat)
  | move (dst src : Nat)
deriving Repr, DecidableEq

/-- Preconditions: vectors have fewer than `2^64` elements; `resize` keeps at least one cell; no self-move. -/
def Op.Valid {T} : Op T → Prop
  | rebuild _ input n => min n input.length + 1 ≤ W
  | resize _ k => 1 ≤ k
  | move dst src => dst ≠ src
  | _ => True

/-- What a call returns. -/
inductive Val (T : Type) where
  | unit
  | bool (b : Bool)
  | value (v : T)
deriving Repr, DecidableEq

/-- The abstract state: each object is not built (`none`) or a plain list of elements. -/
abbrev Store (T : Type) := Nat → Option (List T)

def put {S : Type} (σ : Nat → S) (i : Nat) (s : S) : Nat → S := fun j => if j = i then s else σ j

/-- One operation on plain lists. -/
def step {T} [Add T] [Zero T] (σ : Store T) : Op T → Store T × Res (Val T)
  | .rebuild i input n => (put σ i (some (input.take n)), .ok .unit)
  | .update i p v =>
    match σ i with
    | none => (σ, .exc .notBuilt)
    | some a =>
      (put σ i (some (if 1 ≤ p ∧ p ≤ a.length then a.modify (p - 1) (· + v) else a)),
        .ok (.bool (decide (p ≤ a.length))))
  | .setValue i p v =>
    match σ i with
    | none => (σ, .exc .notBuilt)
    | some a =>
      (put σ i (some (if 1 ≤ p ∧ p ≤ a.length then a.set (p - 1) v else a)),
        .ok (.bool (decide (1 ≤ p ∧ p ≤ a.length))))
  | .query i x y =>
    match σ i with
    | none => (σ, .exc .notBuilt)
    | some a => (σ, .ok (.value (rangeSum a x y)))
  | .resize i k => (put σ i ((σ i).map (·.take (k - 1))), .ok .unit)
  | .copy dst src => (put σ dst (σ src), .ok .unit)
  | .move dst src => (put (put σ dst (σ src)) src none, .ok .unit)

/-- A history: final state and the list of results. -/
def run {T} [Add T] [Zero T] (σ : Store T) : List (Op T) → Store T × List (Res (Val T))
  | [] => (σ, [])
  | o :: os =>
    let (σ', r) := step σ o
    let (σ'', rs) := run σ' os
    (σ'', r :: rs)

end Verif.Fenwick.Spec
