import Verif.Cache.Model

/-!
Specification of the LRU cache: a duplicate-free list of keys, most recent first.
(Only the types `Op`, `Out` are shared with the model.)
-/

namespace Verif.Cache.Spec
variable {K : Type} [DecidableEq K]

/-- Abstract cache. -/
structure LRU (K : Type) where
  cap : Nat
  keys : List K
  last : Bool
  clipped : Nat
  discarded : List K
deriving DecidableEq, Repr

/-- Keep the `cap` most recent keys; the others are discarded, least recent first. -/
def LRU.trim (s : LRU K) : LRU K :=
  { s with
    keys := s.keys.take s.cap
    clipped := (s.keys.drop s.cap).length
    discarded := s.discarded ++ (s.keys.drop s.cap).reverse }

/-- `k` becomes the most recent key. -/
def LRU.touch (s : LRU K) (k : K) : LRU K := { s with keys := k :: s.keys.filter (· ≠ k) }

def LRU.add (s : LRU K) (k : K) : LRU K :=
  if k ∈ s.keys then { s with last := false }
  else { LRU.trim { s with keys := k :: s.keys } with last := true }

/-- Reference semantics of the calls; `operator[]` of an absent key in a cache of capacity 0 has no meaning. -/
def LRU.step (s : LRU K) : Op K → Res (LRU K × Out K)
  | .add k => .ok (s.add k, .none)
  | .find k => if k ∈ s.keys then .ok (s.touch k, .found (some k)) else .ok (s, .found none)
  | .access k =>
    if k ∈ s.keys then .ok ({ s.touch k with last := false }, .elem k)
    else if s.cap = 0 then .ub
    else .ok (s.add k, .elem k)
  | .remove k => .ok ({ s with keys := s.keys.filter (· ≠ k), last := decide (k ∈ s.keys) }, .none)
  | .clear => .ok ({ s with keys := [] }, .none)
  | .setCapacity n => .ok ({ s with cap := n }.trim, .none)
  | .clip => .ok (s.trim, .none)

def LRU.run (s : LRU K) : List (Op K) → Res (LRU K × List (Out K))
  | [] => .ok (s, [])
  | op :: ops => do
    let (s, o) ← s.step op
    let (s, os) ← s.run ops
    .ok (s, o :: os)

/-- A new cache. -/
def LRU.new (cap : Nat) : LRU K := ⟨cap, [], false, 0, []⟩

/-- The distinct keys of an access history (latest access first), ordered by their latest access. -/
def recency : List K → List K
  | [] => []
  | k :: h => k :: (recency h).filter (· ≠ k)

end Verif.Cache.Spec
