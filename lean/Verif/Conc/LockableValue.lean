import Verif.Common

/-!
concurrency/safe.h: the constructors and assignments of `lockable_t<T>`, for a `T` that owns elements (`std::vector`, `std::queue`): copying
it copies every element, moving it hands the elements over and leaves the source empty.

The constructor that the language selects for an argument (`pick`) is part of the definition: it is what overload resolution gives for the three
templates safe.h:31, 40 and 50 and the copy constructor, which is deleted because a mutex is not copied. Arguments that select the deleted
one (a const `lockable_t`) and a `T` that cannot be copied (safe.h:50 does not compile for it) are not modelled.
-/

namespace Verif.Lockable

/-- The argument of a constructor. -/
inductive Src where
  | lvalue | constLvalue | rvalue   -- of type `T`
  | lockLvalue | lockRvalue         -- of type `lockable_t<T>`
  deriving DecidableEq, Repr

def Src.isRvalue : Src → Bool
  | .rvalue | .lockRvalue => true
  | _ => false

inductive Ctor where
  | variadic    -- safe.h:31-32
  | constRef    -- safe.h:37-40
  | rvalueRef   -- safe.h:47-50
  deriving DecidableEq, Repr

/-- Overload resolution: an exact match is preferred, and among equal matches the more special template, which is not the variadic one. -/
def pick : Src → Ctor
  | .lvalue => .variadic
  | .constLvalue => .constRef
  | .rvalue => .rvalueRef
  | .lockLvalue | .lockRvalue => .variadic

/-- A new `T` from an old one: the new and the old contents afterwards and the number of elements copied. -/
def copyT (x : List Int) : List Int × List Int × Nat := (x, x, x.length)
def moveT (x : List Int) : List Int × List Int × Nat := (x, [], 0)

/-- safe.h:31-50: how each constructor initialises its base. -/
def construct (src : Src) (x : List Int) : List Int × List Int × Nat :=
  match pick src with
  | .variadic => if src.isRvalue then moveT x else copyT x  -- :32 `T(std::forward<Args>(args)...)`
  | .constRef => copyT x                                    -- :40 `T(other)`
  | .rvalueRef => copyT x                                   -- :50 `T(other)`, where `other` is an lvalue

/-- safe.h:57-63 and 69-75: the assignments; `rvalue` tells which is selected. The old contents of the target are lost. -/
def assign (rvalue : Bool) (_target x : List Int) : List Int × List Int × Nat :=
  if rvalue then moveT x else copyT x

/-- **C149, full statement.** The new object has the contents of the argument; an rvalue is moved from: it is empty and nothing is copied;
any other argument is unchanged. -/
def C149_statement : Prop :=
  ∀ (src : Src) (x : List Int), (construct src x).1 = x ∧
    (construct src x).2 = if src.isRvalue then ([], 0) else (x, x.length)

/-- **C149, partial.** Missing: an rvalue of type `T`. -/
theorem C149_construct_partial (src : Src) (x : List Int) (h : src ≠ .rvalue) : (construct src x).1 = x ∧
    (construct src x).2 = if src.isRvalue then ([], 0) else (x, x.length) := by
  cases src <;> first | exact absurd rfl h | exact ⟨rfl, rfl⟩

/-- Also an rvalue of type `T` gives the right contents. -/
theorem C149_contents (src : Src) (x : List Int) : (construct src x).1 = x := by
  cases src <;> rfl

/-- C149 for the assignments. -/
theorem C149_assign (rvalue : Bool) (old x : List Int) : (assign rvalue old x).1 = x ∧
    (assign rvalue old x).2 = if rvalue then ([], 0) else (x, x.length) := by
  cases rvalue <;> exact ⟨rfl, rfl⟩

/-- C149 fails: `lockable_t<T> b(std::move(a))` with `a` of type `T` copies every element, for every `a` that has one, and leaves `a` as it was. -/
theorem C149_counterexample : (∀ x : List Int, construct .rvalue x = (x, x, x.length)) ∧ ¬ C149_statement :=
  ⟨fun _ => rfl, fun h => by have := (h .rvalue [1]).2; simp [construct, pick, copyT, Src.isRvalue] at this⟩

example : construct .lockRvalue [4, 5] = ([4, 5], [], 0) := rfl
example : construct .rvalue [4, 5] = ([4, 5], [4, 5], 2) := rfl
example : assign true [1] [4, 5] = ([4, 5], [], 0) := rfl

end Verif.Lockable
