import Verif.Fenwick.Model
import Verif.Fenwick.Spec

/-! Histories of operations on a family of model trees (same operations as `Spec.Op`). -/

namespace Verif.Fenwick
open Spec (Op Val put)

abbrev Store (T : Type) := Nat → Tree T

/-- structures/fenwick_tree.h:38-196: one public call on object `i` of the store.  An exception leaves the
object as it is. -/
def step {T} (t : Transform T) (σ : Store T) : Op T → Store T × Res (Val T)
  | .rebuild i input n => (put σ i ((σ i).build t input n), .ok .unit)
  | .update i p v =>
    match (σ i).update t p v with
    | .ok (f, b) => (put σ i f, .ok (.bool b))
    | .exc e => (σ, .exc e)
    | .ub => (σ, .ub)
  | .setValue i p v =>
    match (σ i).setValue t p v with
    | .ok (f, b) => (put σ i f, .ok (.bool b))
    | .exc e => (σ, .exc e)
    | .ub => (σ, .ub)
  | .query i x y => (σ, Val.value <$> (σ i).query t x y)
  | .resize i k => (put σ i ((σ i).resize k), .ok .unit)
  | .copy dst src => (put σ dst (σ src), .ok .unit)      -- l.70-71 defaulted copy operations
  | .move dst src => (put (put σ dst (σ src).moveFrom.1) src (σ src).moveFrom.2, .ok .unit)

def run {T} (t : Transform T) (σ : Store T) : List (Op T) → Store T × List (Res (Val T))
  | [] => (σ, [])
  | o :: os =>
    let (σ', r) := step t σ o
    let (σ'', rs) := run t σ' os
    (σ'', r :: rs)

/-- All objects freshly default-constructed. -/
def Store.init {T} : Store T := fun _ => Tree.empty

/-- The trees that some history of valid operations can produce. -/
def Reachable {T} (t : Transform T) (f : Tree T) : Prop :=
  ∃ (ops : List (Op T)) (i : Nat), (∀ o ∈ ops, o.Valid) ∧ (run t Store.init ops).1 i = f

end Verif.Fenwick
