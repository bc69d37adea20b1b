/-
Common vocabulary of all models.

`Res α` is the outcome of a C++ call: a normal result, a C++ exception, or undefined behaviour.  UB is a
separate outcome so that a theorem concluding `= Res.ok _` also says that the call is well defined.
-/

namespace Verif

/-- The C++ exceptions that the modelled code can throw. -/
inductive Exc where
  /-- `fenwick_not_built_exception_t` / `heap_not_built_exception_t`
      (structures/fenwick_tree.h:14-18, structures/segment_tree.h) -/
  | notBuilt
  /-- `std::out_of_range`, thrown by `vector::at` / `map::at` -/
  | outOfRange
  /-- `invalid_node_exception` (structures/tree.h) -/
  | invalidNode
  /-- `out_of_resources_exception` (concurrency/semaphore.h) -/
  | outOfResources
  /-- `std::runtime_error` / `std::logic_error` / `std::invalid_argument` -/
  | invalid
deriving DecidableEq, Repr

/-- Outcome of a C++ call. -/
inductive Res (α : Type _) where
  | ok (a : α)
  | exc (e : Exc)
  | ub
deriving DecidableEq, Repr

namespace Res

def bind {α β} (x : Res α) (f : α → Res β) : Res β :=
  match x with
  | ok a => f a
  | exc e => exc e
  | ub => ub

instance : Monad Res where
  pure := ok
  bind := bind

@[simp] theorem bind_ok {α β} (a : α) (f : α → Res β) : ((ok a : Res α) >>= f) = f a := rfl
@[simp] theorem bind_exc {α β} (e : Exc) (f : α → Res β) : ((exc e : Res α) >>= f) = exc e := rfl
@[simp] theorem bind_ub {α β} (f : α → Res β) : ((ub : Res α) >>= f) = ub := rfl
@[simp] theorem pure_eq {α} (a : α) : (pure a : Res α) = ok a := rfl
@[simp] theorem map_ok {α β} (g : α → β) (a : α) : (g <$> (ok a : Res α)) = ok (g a) := rfl
@[simp] theorem map_exc {α β} (g : α → β) (e : Exc) : (g <$> (exc e : Res α)) = exc e := rfl
@[simp] theorem map_ub {α β} (g : α → β) : (g <$> (ub : Res α)) = ub := rfl

theorem bind_eq_ok {α β} {x : Res α} {f : α → Res β} {b : β} :
    (x >>= f) = ok b ↔ ∃ a, x = ok a ∧ f a = ok b := by
  cases x <;> simp

/-- Did the call complete normally? -/
def isOk {α} : Res α → Bool
  | ok _ => true
  | _ => false

/-- The result of a call that completed normally. -/
def toOption {α} : Res α → Option α
  | ok a => some a
  | _ => none

end Res

/-- Unchecked read `v[i]` of a `std::vector`: undefined behaviour outside the bounds. -/
def rd {α} (l : List α) (i : Nat) : Res α :=
  match l[i]? with
  | some x => .ok x
  | none => .ub

/-- Checked read `v.at(i)`: throws `std::out_of_range` outside the bounds. -/
def rdAt {α} (l : List α) (i : Nat) : Res α :=
  match l[i]? with
  | some x => .ok x
  | none => .exc .outOfRange

@[simp] theorem rd_lt {α} {l : List α} {i : Nat} (h : i < l.length) : rd l i = .ok l[i] := by
  simp [rd, h]

theorem rd_ge {α} {l : List α} {i : Nat} (h : l.length ≤ i) : rd l i = .ub := by
  simp [rd, h]

@[simp] theorem rdAt_lt {α} {l : List α} {i : Nat} (h : i < l.length) : rdAt l i = .ok l[i] := by
  simp [rdAt, h]

theorem rdAt_ge {α} {l : List α} {i : Nat} (h : l.length ≤ i) : rdAt l i = .exc .outOfRange := by
  simp [rdAt, h]

/-- The number of values of `size_t` on the modelled (64-bit) platform. -/
def W : Nat := 2 ^ 64

end Verif
