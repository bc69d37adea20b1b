import Verif.Cache.Lemmas

/-!
The LRU cache (structures/cache.h) with an override of `on_discard` (cache.h:298-300) that calls the cache again.

* The override may execute any calls; it may choose them by everything the observers of the cache tell, and by what was discarded
  before.  It may pass on the reference it got, which refers to the list node that is about to be removed (cache.h:155-161: the
  map entry is erased before the call, the node after it).
* A call inside the override may discard, and then calls the override again.  `long` says that the fuel, which bounds the depth of
  these calls and the rounds of the loop, was used up.
* `std::list::pop_back` of an empty list is UB.
-/

namespace Verif.Cache
open Spec
set_option linter.unusedSectionVars false
variable {K : Type} [DecidableEq K]

inductive Run (β : Type) where
  | ok (b : β)
  | ub
  | long
deriving DecidableEq, Repr

def Run.bind {β γ : Type} (r : Run β) (f : β → Run γ) : Run γ :=
  match r with
  | .ok b => f b
  | .ub => .ub
  | .long => .long

instance : Monad Run where
  pure := .ok
  bind := Run.bind

/-- The calls of the cache throw nothing here. -/
def Run.of {β : Type} : Res β → Run β
  | .ok b => .ok b
  | _ => .ub

@[simp] theorem Run.bind_ok {β γ : Type} (b : β) (f : β → Run γ) : ((Run.ok b) >>= f) = f b := rfl
@[simp] theorem Run.bind_ub {β γ : Type} (f : β → Run γ) : ((Run.ub : Run β) >>= f) = .ub := rfl
@[simp] theorem Run.bind_long {β γ : Type} (f : β → Run γ) : ((Run.long : Run β) >>= f) = .long := rfl
@[simp] theorem Run.of_ok {β : Type} (b : β) : Run.of (.ok b) = .ok b := rfl
@[simp] theorem Run.of_ub {β : Type} : Run.of (.ub : Res β) = .ub := rfl

/-- An argument of a call in the override: a value, or the reference that the override was called with. -/
inductive HArg (K : Type) where
  | val (k : K)
  | self
deriving DecidableEq, Repr

/-- The calls in the override. -/
inductive HOp (K : Type) where
  | add (a : HArg K) | find (a : HArg K) | access (a : HArg K) | remove (a : HArg K) | clear | setCapacity (n : Nat) | clip
deriving DecidableEq, Repr

/-- An override of `on_discard`: the calls it makes, by what it can observe and the discarded key. -/
abbrev Hook (K : Type) := LRU K → K → List (HOp K)

def HArg.arg (back : Nat) : HArg K → Arg K
  | .val k => .val k
  | .self => .node back

/-- cache.h:135-145 `add`, for a given `clip`. -/
def addWith (clip : Cache K → Run (Cache K)) (c : Cache K) (a : Arg K) : Run (Cache K) := do
  let key ← Run.of (c.readArg a)
  if c.contains key then .ok { c with last := false }
  else do
    let c1 := { c with list := (c.next, key) :: c.list, next := c.next + 1 }
    let key ← Run.of (c1.readArg a)
    let c2 ← clip { c1 with map := fun k => if k = key then some c.next else c.map k }
    .ok { c2 with last := true }

/-- cache.h:81-90 `operator[]`, for a given `clip`. -/
def accessWith (clip : Cache K → Run (Cache K)) (c : Cache K) (a : Arg K) : Run (Cache K × Out K) := do
  let key ← Run.of (c.readArg a)
  let c ← (if !c.contains key then addWith clip c a else .ok { c with last := false })
  let (c, it) ← Run.of (c.find a)
  match it with
  | some id => do
    let e ← Run.of (c.deref id)
    .ok (c, .elem e)
  | none => .ub

/-- One call, for a given `clip`; `back` is the node that `self` refers to. -/
def hstep (clip : Cache K → Run (Cache K)) (back : Nat) (c : Cache K) : HOp K → Run (Cache K × Out K)
  | .add a => do let c ← addWith clip c (a.arg back); .ok (c, .none)
  | .find a => do
    let (c, it) ← Run.of (c.find (a.arg back))
    match it with
    | some id => do let e ← Run.of (c.deref id); .ok (c, .found (some e))
    | none => .ok (c, .found none)
  | .access a => accessWith clip c (a.arg back)
  | .remove a => do let c ← Run.of (c.remove (a.arg back)); .ok (c, .none)
  | .clear => .ok (c.clear, .none)
  | .setCapacity n => do let c ← clip { c with maxElements := n }; .ok (c, .none)
  | .clip => do let c ← clip c; .ok (c, .none)

/-- The calls of one execution of the override. -/
def hsteps (clip : Cache K → Run (Cache K)) (back : Nat) (c : Cache K) : List (HOp K) → Run (Cache K)
  | [] => .ok c
  | op :: ops => do
    let (c, _) ← hstep clip back c op
    hsteps clip back c ops

/-- cache.h:155-161, the loop of `clip`. -/
def clipLoopH (hook : Hook K) : Nat → Cache K → Run (Cache K)
  | 0, _ => .long
  | n + 1, c =>
    if c.list.length > c.maxElements then
      match c.list.getLast? with
      | none => .ub
      | some back => do
        let c := { c with map := fun k => if k = back.2 then none else c.map k, log := c.log ++ [back.2] }
        let c ← hsteps (fun c => clipLoopH hook n { c with clipped := 0 }) back.1 c (hook (abs c) back.2)
        match c.list with
        | [] => .ub
        | _ :: _ => clipLoopH hook n { c with list := c.list.dropLast, clipped := c.clipped + 1 }
    else .ok c

/-- cache.h:152-163 `clip`. -/
def clipH (hook : Hook K) (fuel : Nat) (c : Cache K) : Run (Cache K) := clipLoopH hook fuel { c with clipped := 0 }

/-- A call from outside as a call with values. -/
def Op.outside : Op K → HOp K
  | .add k => .add (.val k)
  | .find k => .find (.val k)
  | .access k => .access (.val k)
  | .remove k => .remove (.val k)
  | .clear => .clear
  | .setCapacity n => .setCapacity n
  | .clip => .clip

/-- One call from outside. -/
def stepH (hook : Hook K) (fuel : Nat) (c : Cache K) (op : Op K) : Run (Cache K × Out K) :=
  hstep (clipH hook fuel) 0 c op.outside

/-- A history of calls from outside. -/
def runH (hook : Hook K) (fuel : Nat) (c : Cache K) : List (Op K) → Run (Cache K × List (Out K))
  | [] => .ok (c, [])
  | op :: ops => do
    let (c, o) ← stepH hook fuel c op
    let (c, os) ← runH hook fuel c ops
    .ok (c, o :: os)

/-! ### Specification -/

namespace Spec

/-- The key that an argument means when `x` is being discarded. -/
def key (x : K) : HArg K → K
  | .val k => k
  | .self => x

/-- What a call makes of the keys if it need not discard. -/
def LRU.call (s : LRU K) (x : K) : HOp K → LRU K
  | .add a =>
    if key x a ∈ s.keys then { s with last := false } else { s with keys := key x a :: s.keys, last := true, clipped := 0 }
  | .find a => if key x a ∈ s.keys then s.touch (key x a) else s
  | .access a =>
    if key x a ∈ s.keys then { s.touch (key x a) with last := false }
    else { s with keys := key x a :: s.keys, last := true, clipped := 0 }
  | .remove a => { s with keys := s.keys.filter (· ≠ key x a), last := decide (key x a ∈ s.keys) }
  | .clear => { s with keys := [] }
  | .setCapacity n => { s with cap := n, clipped := 0 }
  | .clip => { s with clipped := 0 }

def LRU.calls (s : LRU K) (x : K) (ops : List (HOp K)) : LRU K := ops.foldl (fun s op => s.call x op) s

/-- A call while `x` is being discarded that need not discard: `s` has the keys without `x`, which still takes a place. -/
def QuietOp (s : LRU K) (x : K) : HOp K → Prop
  | .add a => key x a ∈ s.keys ∨ s.keys.length + 2 ≤ s.cap
  | .access a => key x a ∈ s.keys ∨ s.keys.length + 2 ≤ s.cap
  | .find _ => True
  | .remove _ => True
  | .clear => False
  | .setCapacity n => s.keys.length + 1 ≤ n
  | .clip => s.keys.length + 1 ≤ s.cap

def QuietOps (s : LRU K) (x : K) : List (HOp K) → Prop
  | [] => True
  | op :: ops => QuietOp s x op ∧ QuietOps (s.call x op) x ops

/-- An override that never makes the cache discard while it discards, and does not clear it. -/
def Quiet (hook : Hook K) : Prop :=
  ∀ (s : LRU K) ks x, s.keys = ks ++ [x] → s.keys.Nodup → s.cap < s.keys.length → QuietOps { s with keys := ks } x (hook s x)

/-- What discarding does: while there are too many keys, the least recent one is reported and goes. -/
inductive Trims (hook : Hook K) : LRU K → LRU K → Prop
  | done {s : LRU K} : s.keys.length ≤ s.cap → Trims hook s s
  | round {s s' : LRU K} {ks : List K} {x : K} : s.keys = ks ++ [x] → s.cap < s.keys.length →
      Trims hook
        (let t := { s with discarded := s.discarded ++ [x] }
         let u := LRU.calls { t with keys := ks } x (hook t x)
         { u with clipped := u.clipped + 1 }) s' → Trims hook s s'

/-- What the calls from outside do.  `operator[]` has no result if the key is gone after it was added. -/
inductive Does (hook : Hook K) (s : LRU K) : Op K → LRU K → Option (Out K) → Prop
  | addOld {k : K} : k ∈ s.keys → Does hook s (.add k) { s with last := false } (some .none)
  | addNew {k : K} {t : LRU K} : k ∉ s.keys → Trims hook { s with keys := k :: s.keys, clipped := 0 } t →
      Does hook s (.add k) { t with last := true } (some .none)
  | findOld {k : K} : k ∈ s.keys → Does hook s (.find k) (s.touch k) (some (.found (some k)))
  | findNew {k : K} : k ∉ s.keys → Does hook s (.find k) s (some (.found none))
  | accessOld {k : K} : k ∈ s.keys → Does hook s (.access k) { s.touch k with last := false } (some (.elem k))
  | accessNew {k : K} {t : LRU K} : k ∉ s.keys → Trims hook { s with keys := k :: s.keys, clipped := 0 } t → k ∈ t.keys →
      Does hook s (.access k) { t.touch k with last := true } (some (.elem k))
  | accessGone {k : K} {t : LRU K} : k ∉ s.keys → Trims hook { s with keys := k :: s.keys, clipped := 0 } t → k ∉ t.keys →
      Does hook s (.access k) { t with last := true } none
  | remove {k : K} :
      Does hook s (.remove k) { s with keys := s.keys.filter (· ≠ k), last := decide (k ∈ s.keys) } (some .none)
  | clear : Does hook s .clear { s with keys := [] } (some .none)
  | setCapacity {n : Nat} {t : LRU K} : Trims hook { s with cap := n, clipped := 0 } t →
      Does hook s (.setCapacity n) t (some .none)
  | clip {t : LRU K} : Trims hook { s with clipped := 0 } t → Does hook s .clip t (some .none)

end Spec

/-! ### Calls in the override -/

/-- The cache while `b` is being discarded: `d` with the node `b` at the end. -/
def ext (b : Nat × K) (d : Cache K) : Cache K := { d with list := d.list ++ [b] }

/-- `b` is not a node of `d`. -/
structure Apart (b : Nat × K) (d : Cache K) : Prop where
  inv : Inv d
  new : b.1 ∉ d.list.map Prod.fst
  old : b.1 < d.next

theorem Apart.mk' {b : Nat × K} {d d' : Cache K} (h : Apart b d) (hi : Inv d') (hn : d.next ≤ d'.next)
    (hs : ∀ i ∈ d'.list.map Prod.fst, i ∈ d.list.map Prod.fst ∨ i = d.next) : Apart b d' := by
  refine ⟨hi, fun hb => ?_, Nat.lt_of_lt_of_le h.old hn⟩
  rcases hs _ hb with hb | hb
  · exact h.new hb
  · have := h.old
    omega

theorem find?_append_mem {l : List (Nat × K)} {b : Nat × K} {i : Nat} {p : Nat × K} (h : l.find? (fun p => p.1 = i) = some p) :
    (l ++ [b]).find? (fun p => p.1 = i) = some p := by
  rw [List.find?_append, h]
  rfl

theorem Apart.read {b : Nat × K} {d : Cache K} (h : Apart b d) (a : HArg K) :
    (ext b d).readArg (a.arg b.1) = .ok (key b.2 a) := by
  cases a with
  | val k => rfl
  | self =>
    simp only [HArg.arg, Cache.readArg, Cache.deref, ext]
    have : d.list.find? (fun p => p.1 = b.1) = none := by
      rw [List.find?_eq_none]
      intro p hp e
      exact h.new (List.mem_map.2 ⟨p, hp, by simpa using e⟩)
    rw [List.find?_append, this]
    simp [key]

theorem ext_last (b : Nat × K) (d : Cache K) (f : Bool) : ({ ext b d with last := f } : Cache K) = ext b { d with last := f } := rfl

/-- `move_to_front` does not care about the node at the end. -/
theorem Apart.moveToFront {b : Nat × K} {d : Cache K} (h : Apart b d) {i : Nat} {k : K} (hm : (i, k) ∈ d.list) :
    ∃ d' j l, (ext b d).moveToFront i = .ok (ext b d') ∧ Apart b d' ∧ d'.list = (j, k) :: l ∧ abs d' = (abs d).touch k := by
  obtain ⟨d', j, l, e, hi, hl, ha⟩ := h.inv.moveToFront hm
  have hf := h.inv.find? hm
  unfold Cache.moveToFront at e ⊢
  rw [hf] at e
  have : (ext b d).list.find? (fun p => p.1 = i) = some (i, k) := find?_append_mem hf
  rw [this]
  simp only at e ⊢
  have hne : d.list ≠ [] := by
    intro e
    rw [e] at hm
    cases hm
  have hh : (ext b d).list.head? = d.list.head? := by
    show (d.list ++ [b]).head? = _
    cases hd : d.list with
    | nil => exact absurd hd hne
    | cons p q => rfl
  rw [hh]
  split at e
  · next hc =>
    rw [if_pos hc]
    cases e
    exact ⟨d, j, l, rfl, h, hl, ha⟩
  · next hc =>
    rw [if_neg hc]
    cases e
    refine ⟨_, j, l, ?_, h.mk' hi (Nat.le_succ _) ?_, hl, ha⟩
    · simp only [ext]
      rw [List.eraseP_append_left (p := fun q : Nat × K => q.1 = i) (a := (i, k)) (by simp) _ hm]
      rfl
    · intro i' hi'
      rw [List.map_cons, List.mem_cons] at hi'
      rcases hi' with hi' | hi'
      · exact .inr hi'
      · exact .inl (((List.eraseP_sublist (l := d.list)).map _).subset hi')

theorem Apart.find {b : Nat × K} {d : Cache K} (h : Apart b d) (a : HArg K) :
    (key b.2 a ∈ d.values → ∃ d' j l, (ext b d).find (a.arg b.1) = .ok (ext b d', some j) ∧ Apart b d' ∧
      d'.list = (j, key b.2 a) :: l ∧ abs d' = (abs d).touch (key b.2 a)) ∧
    (key b.2 a ∉ d.values → (ext b d).find (a.arg b.1) = .ok (ext b d, none)) := by
  constructor
  · intro hk
    obtain ⟨i, h1, h2⟩ := h.inv.map_some hk
    obtain ⟨d', j, l, e, hd, hl, ha⟩ := h.moveToFront h2
    refine ⟨d', j, l, ?_, hd, hl, ha⟩
    unfold Cache.find
    rw [h.read a]
    have hmap : (ext b d).map (key b.2 a) = some i := h1
    have hh : (ext b d').list.head? = some (j, key b.2 a) := by
      show (d'.list ++ [b]).head? = _
      rw [hl]
      rfl
    simp only [Res.bind_ok, hmap, e, hh]
  · intro hk
    unfold Cache.find
    rw [h.read a]
    have hmap : (ext b d).map (key b.2 a) = none := h.inv.map_none hk
    simp only [Res.bind_ok, hmap]

theorem Apart.remove {b : Nat × K} {d : Cache K} (h : Apart b d) (a : HArg K) :
    ∃ d', (ext b d).remove (a.arg b.1) = .ok (ext b d') ∧ Apart b d' ∧ abs d' = (abs d).call b.2 (.remove a) := by
  obtain ⟨d', e, hi, ha⟩ := h.inv.remove (key b.2 a)
  unfold Cache.remove at e ⊢
  rw [h.read a]
  simp only [Cache.readArg, Res.bind_ok] at e
  simp only [Res.bind_ok]
  by_cases hk : key b.2 a ∈ d.values
  · obtain ⟨i, h1, h2⟩ := h.inv.map_some hk
    have hmap : (ext b d).map (key b.2 a) = some i := h1
    have hde : (ext b d).deref i = .ok (key b.2 a) := by
      unfold Cache.deref
      rw [show (ext b d).list = d.list ++ [b] from rfl, find?_append_mem (h.inv.find? h2)]
    have her : (ext b d).list.eraseP (fun q => q.1 = i) = d.list.eraseP (fun q => q.1 = i) ++ [b] :=
      List.eraseP_append_left (p := fun q : Nat × K => q.1 = i) (a := (i, key b.2 a)) (by simp) _ h2
    simp only [h1, h.inv.deref h2, Res.bind_ok] at e
    cases e
    have hap : Apart b { d with list := d.list.eraseP (fun q => q.1 = i), map := fun k => if k = key b.2 a then none else d.map k, last := true } :=
      h.mk' hi (Nat.le_refl _) fun i' hi' => .inl (((List.eraseP_sublist (l := d.list)).map _).subset hi')
    have hr := hap.read a
    simp only [hmap, hde, Res.bind_ok, her]
    have : Cache.readArg { (ext b d) with list := d.list.eraseP (fun q => q.1 = i) ++ [b] } (a.arg b.1) = .ok (key b.2 a) := by
      cases a with
      | val k => rfl
      | self => exact hr
    erw [this]
    exact ⟨_, rfl, hap, ha⟩
  · have hmap : (ext b d).map (key b.2 a) = none := h.inv.map_none hk
    simp only [h.inv.map_none hk] at e
    cases e
    simp only [hmap]
    exact ⟨_, rfl, h.mk' hi (Nat.le_refl _) fun i' hi' => .inl hi', ha⟩

end Verif.Cache
