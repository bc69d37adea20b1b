import Verif.Common

/-!
Model of structures/command.h (`command_manager_t`).

Commands are pointers (natural numbers, 0 is `nullptr`).  `deleted` lists the pointers passed to `delete`, in order.
`back`/`pop_back`/`front`/`pop_front` on an empty deque are UB.

`store` is declared to return `command*` but has no return statement: flowing off its end is UB (C++17 [stmt.return]/2), so
`store true` (the code as written) is UB after its effects.  `store false` is the same body as if it ended in a
`return new_command;`, so that more can be said about the rest of the class.
-/

namespace Verif.Command

/-- command.h:77-79. -/
structure Mgr where
  maxElements : Nat := 1024
  first : List Nat := []
  second : List Nat := []
  deleted : List Nat := []
deriving DecidableEq, Repr

/-- `list.back()` then `pop_back()`. -/
def popBack (l : List Nat) : Res (Nat × List Nat) :=
  match l.getLast? with
  | some x => .ok (x, l.dropLast)
  | none => .ub

/-- command.h:54-62 `dispose(list)`: number of deleted items, deleted pointers (back first). -/
def disposeList (l : List Nat) : Nat × List Nat := (l.length, l.reverse)

/-- command.h:65-74 `clip`: both loops delete from the front while the deque is too long. -/
def clip (m : Mgr) : Mgr :=
  { m with first := m.first.drop (m.first.length - m.maxElements),
           second := m.second.drop (m.second.length - m.maxElements),
           deleted := m.deleted ++ m.first.take (m.first.length - m.maxElements) ++
             m.second.take (m.second.length - m.maxElements) }

/-- command.h:17-26 `undo`. -/
def undo (m : Mgr) : Res (Mgr × Nat) :=
  if m.first.length ≠ 0 then do
    let (ptr, second) ← popBack m.second
    .ok (clip { m with second := second ++ [ptr] }, ptr)
  else .ok (m, 0)

/-- command.h:28-37 `redo`. -/
def redo (m : Mgr) : Res (Mgr × Nat) :=
  if m.second.length ≠ 0 then do
    let (ptr, first) ← popBack m.first
    .ok (clip { m with first := first ++ [ptr] }, ptr)
  else .ok (m, 0)

/-- command.h:48-51 `dispose()`. -/
def dispose (m : Mgr) : Mgr × Nat :=
  ({ m with second := [], deleted := m.deleted ++ (disposeList m.second).2 }, (disposeList m.second).1)

/-- command.h:39-46 `store`; `noReturn = true` is the code as written. -/
def store (noReturn : Bool) (m : Mgr) (p : Nat) : Res (Mgr × Nat) :=
  let m := if m.second.length ≠ 0 then (dispose m).1 else m
  let m := clip { m with first := m.first ++ [p] }
  if noReturn then .ub else .ok (m, p)

/-- command.h:12-15 destructor: all pointers deleted during the life of the manager. -/
def destroy (m : Mgr) : List Nat := m.deleted ++ (disposeList m.first).2 ++ (disposeList m.second).2

inductive Op where
  | store (p : Nat) | undo | redo | dispose
deriving DecidableEq, Repr

def step (noReturn : Bool) (m : Mgr) : Op → Res (Mgr × Nat)
  | .store p => store noReturn m p
  | .undo => undo m
  | .redo => redo m
  | .dispose => .ok (dispose m)

def run (noReturn : Bool) : Mgr → List Op → Res (Mgr × List Nat)
  | m, [] => .ok (m, [])
  | m, op :: ops => do
    let (m, r) ← step noReturn m op
    let (m, rs) ← run noReturn m ops
    .ok (m, r :: rs)

end Verif.Command
