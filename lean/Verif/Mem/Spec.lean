import Verif.Mem.Model
import Verif.Avl.Spec

/-!
Specification of the memory of the trees: what a program finds by following pointers, and several multisets as the meaning of
several tree objects.
-/

namespace Verif.Mem.Spec
open Avl.Spec (MSet)
variable {α : Type}

/-- Follow child pointers from `p`; `true` is right. -/
def follow (s : St α) : Ptr → List Bool → Ptr
  | p, [] => p
  | none, _ :: _ => none
  | some i, b :: path =>
    match s.mem i with
    | none => none
    | some c => follow s (if b then c.right else c.left) path

/-- Node `i` is found in tree `k`. -/
def InTree (s : St α) (k i : Nat) : Prop := ∃ path, follow s (s.roots k) path = some i

/-- The in-order values of what hangs at `p`; every node read is allocated. -/
inductive Reads (s : St α) : Ptr → List α → Prop
  | null : Reads s none []
  | node {i : Nat} {c : Cell α} {xs ys : List α} : s.mem i = some c → Reads s c.left xs → Reads s c.right ys →
      Reads s (some i) (xs ++ c.val :: ys)

/-- Both memories hold the same trees, node by node. -/
def Same (s s' : St α) : Prop :=
  ∀ k path, follow s (s.roots k) path = follow s' (s'.roots k) path ∧
    ∀ i, follow s (s.roots k) path = some i → s.mem i = s'.mem i

/-- A history stays within `P`: every operation is allowed in the world it is executed in. -/
def Always [LinearOrder α] (dflt : α) (P : World α → WOp α → Prop) (ops : List (WOp α)) : Prop :=
  ∀ pre op post outs w, ops = pre ++ op :: post → World.init.run dflt pre = .ok (outs, w) → P w op

/-- Assignments go to empty trees, or copy empty ones. -/
def ToEmpty (w : World α) : WOp α → Prop
  | .copy k j => w.s.roots k = none ∨ w.s.roots j = none
  | .move k _ => w.s.roots k = none
  | _ => True

/-- No self-assignment, and an empty tree is copied to empty trees only. -/
def Sane (w : World α) : WOp α → Prop
  | .copy k j => k ≠ j ∧ (w.s.roots j = none → w.s.roots k = none)
  | .move k j => k ≠ j
  | _ => True

/-- The meaning of the tree objects; `stale k`: the object was moved from, its counter is not right. -/
structure Store (α : Type) where
  sets : Nat → MSet α
  stale : Nat → Bool

def Store.init : Store α := ⟨fun _ => MSet.empty, fun _ => false⟩

def Store.put (S : Store α) (k : Nat) (m : MSet α) (b : Bool) : Store α :=
  ⟨fun i => if i = k then m else S.sets i, fun i => if i = k then b else S.stale i⟩

/-- The first `n` rounds of the loop of `remove_all` (binary_tree.h:505-511), each of which removes a node. -/
def rounds [LinearOrder α] : Nat → St α → Nat → Obj → Ref α → Res (Obj × St α)
  | 0, s, _, o, _ => .ok (o, s)
  | n + 1, s, k, o, ref => do
    let (b, o, s) ← callRemove s k o ref
    if b then rounds n s k o ref else .exc .invalid

variable [DecidableEq α]

def Store.step (S : Store α) : WOp α → Store α × Option Avl.Out
  | .call k op => (S.put k ((S.sets k).step op).1 (S.stale k && decide (op ≠ .clear)), some ((S.sets k).step op).2)
  | .copy k j => (S.put k (S.sets j) (S.stale j), none)
  | .move k j => ((S.put k (S.sets j) (S.stale j)).put j ⟨fun _ => 0, (S.sets j).dups⟩ true, none)
  | .destroy k => (S.put k MSet.empty false, none)

def Store.run (S : Store α) : List (WOp α) → Store α × List (Option Avl.Out)
  | [] => (S, [])
  | op :: ops => (((S.step op).1.run ops).1, (S.step op).2 :: ((S.step op).1.run ops).2)

end Verif.Mem.Spec
