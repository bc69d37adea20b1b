import Verif.Cache.Props

/-!
The LRU cache (structures/cache.h) when its operations throw: the allocation of list nodes and map entries, the copy constructor,
hash function and comparison of `key_t`, and an override of `on_discard`.

* Each call gets a plan that says which of the points it reaches throw.  The exception leaves the call; the program goes on with
  the cache as it is then.
* `std::list::push_front` and the functions of `std::unordered_map` have no effect if they throw (their strong guarantee);
  `std::list::erase`, `pop_back` and `clear` do not throw.
-/

namespace Verif.Cache
open Spec
set_option linter.unusedSectionVars false
variable {K : Type} [DecidableEq K]

/-- The points of the calls that may throw. -/
inductive Point where
  /-- `_map.count(key)`, `_map.find(key)` (cache.h:51, 66, 243) -/
  | lookup
  /-- `_list.push_front(key)` of `add` (cache.h:139) -/
  | node
  /-- `_map[key]` of `add` (cache.h:140) -/
  | entry
  /-- `_map.erase(back)` of `clip` (cache.h:157) -/
  | forget
  /-- `on_discard(back)` (cache.h:158) -/
  | report
  /-- `_map.reserve` (cache.h:191) -/
  | reserve
  /-- `key_t key{ *it }` of `move_to_front` (cache.h:310) -/
  | copy
  /-- `_list.push_front(key)` of `move_to_front` (cache.h:312) -/
  | relink
  /-- `_map[key]` of `move_to_front` (cache.h:313) -/
  | index
  /-- `_map.erase(key)` of `remove` (cache.h:246) -/
  | unmap
deriving DecidableEq, Repr

/-- Which points of a call throw: a point and how many points of its kind the call has reached before. -/
abbrev Plan := Point → Nat → Bool

/-- The outcome of a call; an exception leaves the cache in some state. -/
inductive T (K : Type) (β : Type) where
  | ok (b : β)
  | threw (c : Cache K)
  | ub

def T.bind {β γ : Type} (r : T K β) (f : β → T K γ) : T K γ :=
  match r with
  | .ok b => f b
  | .threw c => .threw c
  | .ub => .ub

instance : Monad (T K) where
  pure := .ok
  bind := T.bind

@[simp] theorem T.bind_ok {β γ : Type} (b : β) (f : β → T K γ) : ((T.ok b : T K β) >>= f) = f b := rfl
@[simp] theorem T.bind_threw {β γ : Type} (c : Cache K) (f : β → T K γ) : ((T.threw c : T K β) >>= f) = .threw c := rfl
@[simp] theorem T.bind_ub {β γ : Type} (f : β → T K γ) : ((T.ub : T K β) >>= f) = .ub := rfl

/-- A point that throws or not, with the cache at that moment. -/
def at_ (pl : Plan) (p : Point) (i : Nat) (c : Cache K) : T K Unit := if pl p i = true then .threw c else .ok ()

/-- cache.h:155-161, at most `n` rounds of the loop of `clip`, the `i`-th is the first. -/
def clipT (pl : Plan) : Nat → Nat → Cache K → T K (Cache K)
  | 0, _, c => .ok c
  | n + 1, i, c =>
    if c.list.length > c.maxElements then
      match c.list.getLast? with
      | none => .ub
      | some back => do
        let _ ← at_ pl .forget i c
        let c := { c with map := fun k => if k = back.2 then none else c.map k }
        let c := { c with log := c.log ++ [back.2] }
        let _ ← at_ pl .report i c
        clipT pl n (i + 1) { c with list := c.list.dropLast, clipped := c.clipped + 1 }
    else .ok c

/-- cache.h:152-163 `clip`; each round takes one node. -/
def clipAllT (pl : Plan) (c : Cache K) : T K (Cache K) := clipT pl c.list.length 0 { c with clipped := 0 }

/-- cache.h:135-145 `add`; `i` lookups were done before. -/
def addT (pl : Plan) (i : Nat) (c : Cache K) (key : K) : T K (Cache K) := do
  let _ ← at_ pl .lookup i c
  if c.contains key then .ok { c with last := false }
  else do
    let _ ← at_ pl .node 0 c
    let c1 := { c with list := (c.next, key) :: c.list, next := c.next + 1 }
    let _ ← at_ pl .entry 0 c1
    let c2 ← clipAllT pl { c1 with map := fun k => if k = key then some c.next else c.map k }
    .ok { c2 with last := true }

/-- cache.h:307-315 `move_to_front`. -/
def moveT (pl : Plan) (c : Cache K) (it : Nat) : T K (Cache K) :=
  match c.list.find? (fun p => p.1 = it) with
  | none => .ub
  | some p =>
    if c.list.head?.map Prod.fst = some it then .ok c
    else do
      let _ ← at_ pl .copy 0 c
      let c1 := { c with list := c.list.eraseP (fun q => q.1 = it) }
      let _ ← at_ pl .relink 0 c1
      let c2 := { c1 with list := (c.next, p.2) :: c1.list, next := c.next + 1 }
      let _ ← at_ pl .index 0 c2
      .ok { c2 with map := fun k => if k = p.2 then some c.next else c.map k }

/-- cache.h:63-73 `find`; `i` lookups were done before. -/
def findT (pl : Plan) (i : Nat) (c : Cache K) (key : K) : T K (Cache K × Option Nat) := do
  let _ ← at_ pl .lookup i c
  match c.map key with
  | some it => do
    let c ← moveT pl c it
    match c.list.head? with
    | some p => .ok (c, some p.1)
    | none => .ub
  | none => .ok (c, none)

/-- The element an iterator refers to. -/
def derefT (c : Cache K) (id : Nat) : T K K :=
  match c.deref id with
  | .ok k => .ok k
  | _ => .ub

/-- cache.h:81-90 `operator[]`. -/
def accessT (pl : Plan) (c : Cache K) (key : K) : T K (Cache K × Out K) := do
  let _ ← at_ pl .lookup 0 c
  let c ← (if !c.contains key then addT pl 1 c key else .ok { c with last := false })
  let (c, it) ← findT pl 2 c key
  match it with
  | some id => do
    let e ← derefT c id
    .ok (c, .elem e)
  | none => .ub

/-- cache.h:241-253 `remove`. -/
def removeT (pl : Plan) (c : Cache K) (key : K) : T K (Cache K) := do
  let _ ← at_ pl .lookup 0 c
  match c.map key with
  | some it => do
    let _ ← derefT c it
    let c := { c with list := c.list.eraseP (fun q => q.1 = it) }
    let _ ← at_ pl .unmap 0 c
    .ok { c with map := fun k => if k = key then none else c.map k, last := true }
  | none => .ok { c with last := false }

/-- One call. -/
def stepT (pl : Plan) (c : Cache K) : Op K → T K (Cache K × Out K)
  | .add k => do let c ← addT pl 0 c k; .ok (c, .none)
  | .find k => do
    let (c, it) ← findT pl 0 c k
    match it with
    | some id => do let e ← derefT c id; .ok (c, .found (some e))
    | none => .ok (c, .found none)
  | .access k => accessT pl c k
  | .remove k => do let c ← removeT pl c k; .ok (c, .none)
  | .clear => .ok (c.clear, .none)
  | .setCapacity n => do
    let _ ← at_ pl .reserve 0 c
    let c ← clipAllT pl { c with maxElements := n }
    .ok (c, .none)
  | .clip => do let c ← clipAllT pl c; .ok (c, .none)

/-- A history of calls; the results of calls that threw are `none`. -/
def runT (c : Cache K) : List (Op K × Plan) → Res (Cache K × List (Option (Out K)))
  | [] => .ok (c, [])
  | (op, pl) :: ops =>
    match stepT pl c op with
    | .ok (c, o) => do
      let (c, os) ← runT c ops
      .ok (c, some o :: os)
    | .threw c => do
      let (c, os) ← runT c ops
      .ok (c, none :: os)
    | .ub => .ub

/-! ### Nothing throws -/

theorem clipT_none (n : Nat) : ∀ (i : Nat) (c : Cache K), c.list.length ≤ n → clipT (fun _ _ => false) n i c = .ok c.clipLoop := by
  induction n with
  | zero =>
    intro i c hl
    have : c.clipStep = none := by
      unfold Cache.clipStep
      rw [if_neg (by omega)]
    rw [Cache.clipLoop.eq_def]
    split
    · rfl
    · next hs => rw [this] at hs; cases hs
  | succ n ih =>
    intro i c hl
    rw [Cache.clipLoop.eq_def]
    split
    · next hs =>
      unfold clipT
      rw [if_neg (by have := clipStep_none hs; omega)]
    · next c' hs =>
      unfold clipT
      obtain ⟨l, b, h1, h2, h3⟩ := clipStep_some hs
      rw [if_pos (by rw [h1]; simp; omega), h1, List.getLast?_concat]
      simp only [at_, Bool.false_eq_true, if_false, T.bind_ok]
      have hl' : c'.list.length ≤ n := by
        rw [h1] at hl
        rw [h3]
        simp at hl ⊢
        omega
      rw [← ih (i + 1) c' hl', h3, List.dropLast_concat]

/-- Without exceptions these are the calls of the model. -/
theorem stepT_none (c : Cache K) (op : Op K) : stepT (fun _ _ => false) c op =
    (match step c op with
      | .ok r => .ok r
      | _ => .ub) := by
  have hat : ∀ (p : Point) (i : Nat) (c : Cache K), at_ (fun _ _ => false) p i c = .ok () := fun _ _ _ => rfl
  have hclip : ∀ c : Cache K, clipAllT (fun _ _ => false) c = .ok c.clip := fun c => clipT_none _ 0 _ (Nat.le_refl _)
  have hadd : ∀ (i : Nat) (c : Cache K) (k : K), addT (fun _ _ => false) i c k =
      (match c.add (.val k) with
        | .ok c => .ok c
        | _ => .ub) := by
    intro i c k
    unfold addT Cache.add
    simp only [hat, T.bind_ok, hclip, Cache.readArg, Res.bind_ok]
    cases c.contains k <;> simp
  have hfind : ∀ (i : Nat) (c : Cache K) (k : K), findT (fun _ _ => false) i c k =
      (match c.find (.val k) with
        | .ok r => .ok r
        | _ => .ub) := by
    intro i c k
    unfold findT Cache.find
    simp only [hat, T.bind_ok, Cache.readArg, Res.bind_ok]
    cases c.map k with
    | none => rfl
    | some it =>
      simp only [moveT, Cache.moveToFront, hat, T.bind_ok]
      cases c.list.find? (fun p => p.1 = it) with
      | none => rfl
      | some p =>
        simp only
        split
        · simp only [T.bind_ok, Res.bind_ok]
          cases c.list.head? <;> rfl
        · rfl
  cases op with
  | add k =>
    simp only [stepT, step, hadd]
    cases c.add (.val k) <;> rfl
  | find k =>
    simp only [stepT, step, hfind]
    cases c.find (.val k) with
    | ok r =>
      obtain ⟨c', it⟩ := r
      cases it with
      | none => rfl
      | some id =>
        simp only [T.bind_ok, Res.bind_ok, derefT]
        cases c'.deref id <;> rfl
    | exc e => rfl
    | ub => rfl
  | access k =>
    simp only [stepT, step, accessT, Cache.access, hat, T.bind_ok, Cache.readArg, Res.bind_ok, hadd, hfind]
    have key : ∀ r : Res (Cache K),
        ((match r with | .ok c => .ok c | _ => .ub : T K (Cache K)) >>= fun c =>
          ((match c.find (.val k) with | .ok r => .ok r | _ => .ub : T K (Cache K × Option Nat)) >>= fun x =>
            match x.2 with
            | some id => do
              let e ← derefT x.1 id
              .ok (x.1, .elem e)
            | none => .ub)) =
        (match ((r >>= fun c => c.find (.val k) >>= fun x =>
          match x.2 with
          | some id => x.1.deref id >>= fun _ => Res.ok (x.1, id)
          | none => .ub) >>= fun y => y.1.deref y.2 >>= fun e => Res.ok (y.1, Out.elem e)) with
          | .ok r => .ok r
          | _ => .ub) := by
      intro r
      cases r with
      | ok c =>
        simp only [T.bind_ok, Res.bind_ok]
        cases c.find (.val k) with
        | ok x =>
          obtain ⟨c', it⟩ := x
          cases it with
          | none => rfl
          | some id =>
            simp only [T.bind_ok, Res.bind_ok, derefT]
            cases hd : c'.deref id <;> simp [hd]
        | exc e => rfl
        | ub => rfl
      | exc e => rfl
      | ub => rfl
    cases c.contains k with
    | true => exact key (.ok { c with last := false })
    | false => exact key (c.add (.val k))
  | remove k =>
    simp only [stepT, step, removeT, Cache.remove, hat, T.bind_ok, Cache.readArg, Res.bind_ok]
    cases c.map k with
    | none => rfl
    | some it =>
      simp only [derefT]
      cases c.deref it <;> rfl
  | clear => rfl
  | setCapacity n => simp only [stepT, step, hat, T.bind_ok, hclip, Cache.setCapacity]
  | clip => simp only [stepT, step, hclip, T.bind_ok]

end Verif.Cache
