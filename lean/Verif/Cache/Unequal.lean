import Verif.Cache.Spec
import Mathlib.Tactic.ByContra
import Mathlib.Data.List.Basic

/-!
`cache_t` over keys whose `==` is not identity (structures/cache.h), and C164: floating point keys, where NaN is not equal
to itself and -0.0 is equal to 0.0.

As `Verif/Cache/Model.lean`, but `==` is an arbitrary function, of which the theorems assume that it is symmetric and
transitive (and that the hash function agrees with it, as `std::unordered_map` requires).  The map is the list of its
entries.  Arguments are values outside the cache.
-/

namespace Verif.Cache.Unequal
open Verif.Cache (Op Out)

variable {K : Type}

/-! ### `std::unordered_map` -/

/-- `find(k)`: the value of the entry with an equal key. -/
def lookup (eq : K → K → Bool) (m : List (K × Nat)) (k : K) : Option Nat := (m.find? fun e => eq k e.1).map Prod.snd

/-- `m[k] = v`: an entry with an equal key keeps its key; otherwise there is a new entry. -/
def assign (eq : K → K → Bool) (m : List (K × Nat)) (k : K) (v : Nat) : List (K × Nat) :=
  if m.any (fun e => eq k e.1) then m.map (fun e => if eq k e.1 then (e.1, v) else e) else (k, v) :: m

/-- `erase(k)`. -/
def erase (eq : K → K → Bool) (m : List (K × Nat)) (k : K) : List (K × Nat) := m.filter fun e => !eq k e.1

/-! ### The cache -/

/-- cache.h:317-322 data members, as in Model.lean. -/
structure Cache (K : Type) where
  maxElements : Nat
  clipped : Nat
  last : Bool
  map : List (K × Nat)
  list : List (Nat × K)
  next : Nat
  log : List K

namespace Cache
variable (eq : K → K → Bool)

/-- Dereference an iterator. -/
def deref (c : Cache K) (id : Nat) : Res K :=
  match c.list.find? (fun p => p.1 = id) with
  | some p => .ok p.2
  | none => .ub

/-- cache.h:49-52 `contains`. -/
def contains (c : Cache K) (k : K) : Bool := (lookup eq c.map k).isSome

/-- One round of the loop of cache.h:155-161 `clip`; `none` when the loop ends. -/
def clipStep (c : Cache K) : Option (Cache K) :=
  if c.list.length > c.maxElements then
    match c.list.getLast? with
    | none => none
    | some back =>
      some { c with
        map := erase eq c.map back.2
        log := c.log ++ [back.2]
        list := c.list.dropLast
        clipped := c.clipped + 1 }
  else none

theorem clipStep_length {c c' : Cache K} (h : c.clipStep eq = some c') : c'.list.length < c.list.length := by
  unfold clipStep at h
  split at h
  · split at h
    · cases h
    · injection h with h
      rw [← h]
      simp only [List.length_dropLast]; omega
  · cases h

/-- The loop of `clip`. -/
def clipLoop (c : Cache K) : Cache K :=
  match _h : c.clipStep eq with
  | none => c
  | some c' => clipLoop c'
termination_by c.list.length
decreasing_by exact clipStep_length eq _h

/-- cache.h:152-163 `clip`. -/
def clip (c : Cache K) : Cache K := clipLoop eq { c with clipped := 0 }

/-- cache.h:187-196 `set_capacity`. -/
def setCapacity (c : Cache K) (capacity : Nat) : Cache K := clip eq { c with maxElements := capacity }

/-- cache.h:41-43 constructor (30 for the capacity 1024). -/
def new (capacity : Nat) : Cache K := ⟨capacity, 0, false, [], [], 0, []⟩

/-- cache.h:307-315 `move_to_front`. -/
def moveToFront (c : Cache K) (it : Nat) : Res (Cache K) :=
  match c.list.find? (fun p => p.1 = it) with
  | none => .ub
  | some p =>
    if c.list.head?.map Prod.fst = some it then .ok c
    else .ok { c with
      list := (c.next, p.2) :: c.list.eraseP (fun q => q.1 = it)
      map := assign eq c.map p.2 c.next
      next := c.next + 1 }

/-- cache.h:63-73 `find`; the iterator result is `_list.begin()`. -/
def find (c : Cache K) (key : K) : Res (Cache K × Option Nat) :=
  match lookup eq c.map key with
  | some it => do
    let c ← c.moveToFront eq it
    match c.list.head? with
    | some p => .ok (c, some p.1)
    | none => .ub
  | none => .ok (c, none)

/-- cache.h:135-145 `add`. -/
def add (c : Cache K) (key : K) : Cache K :=
  if !c.contains eq key then
    { clip eq { c with list := (c.next, key) :: c.list, next := c.next + 1, map := assign eq c.map key c.next } with last := true }
  else { c with last := false }

/-- cache.h:81-90 `operator[]`; returns the node referred to.  An iterator that was not found is singular. -/
def access (c : Cache K) (key : K) : Res (Cache K × Nat) := do
  let c := if !c.contains eq key then c.add eq key else { c with last := false }
  let (c, it) ← c.find eq key
  match it with
  | some id => do
    let _ ← c.deref id
    .ok (c, id)
  | none => .ub

/-- cache.h:241-253 `remove`. -/
def remove (c : Cache K) (key : K) : Res (Cache K) :=
  match lookup eq c.map key with
  | some it => do
    let _ ← c.deref it
    .ok { c with list := c.list.eraseP (fun q => q.1 = it), map := erase eq c.map key, last := true }
  | none => .ok { c with last := false }

/-- cache.h:268-272 `clear`. -/
def clear (c : Cache K) : Cache K := { c with map := [], list := [] }

/-- cache.h:229-232 `values`. -/
def values (c : Cache K) : List K := c.list.map Prod.snd

end Cache

/-- One call. -/
def step (eq : K → K → Bool) (c : Cache K) : Op K → Res (Cache K × Out K)
  | .add k => .ok (c.add eq k, .none)
  | .find k => do
    let (c, it) ← c.find eq k
    match it with
    | some id => do let e ← c.deref id; .ok (c, .found (some e))
    | none => .ok (c, .found none)
  | .access k => do
    let (c, id) ← c.access eq k
    let e ← c.deref id
    .ok (c, .elem e)
  | .remove k => do let c ← c.remove eq k; .ok (c, .none)
  | .clear => .ok (c.clear, .none)
  | .setCapacity n => .ok (c.setCapacity eq n, .none)
  | .clip => .ok (c.clip eq, .none)

/-- A history of calls. -/
def run (eq : K → K → Bool) (c : Cache K) : List (Op K) → Res (Cache K × List (Out K))
  | [] => .ok (c, [])
  | op :: ops => do
    let (c, o) ← step eq c op
    let (c, os) ← run eq c ops
    .ok (c, o :: os)

/-! ### Specification -/

namespace Spec

/-- A cache of keys: most recent first.  `stale`: the keys unequal to themselves that were added since the last `clear`. -/
structure LRU (K : Type) where
  cap : Nat
  keys : List K
  last : Bool
  clipped : Nat
  discarded : List K
  stale : Nat
deriving DecidableEq, Repr

/-- Keep the `cap` most recent keys. -/
def LRU.trim (s : LRU K) : LRU K :=
  { s with
    keys := s.keys.take s.cap
    clipped := (s.keys.drop s.cap).length
    discarded := s.discarded ++ (s.keys.drop s.cap).reverse }

def LRU.push (eq : K → K → Bool) (s : LRU K) (k : K) : LRU K :=
  { LRU.trim { s with keys := k :: s.keys, stale := if eq k k then s.stale else s.stale + 1 } with last := true }

/-- Reference semantics. A key is found if an equal one is held; this one is returned. `operator[]` of an absent key has no
meaning for capacity 0 and for a key that is unequal to itself. -/
def LRU.step (eq : K → K → Bool) (s : LRU K) : Op K → Res (LRU K × Out K)
  | .add k => if s.keys.any (eq k) then .ok ({ s with last := false }, .none) else .ok (s.push eq k, .none)
  | .find k =>
    match s.keys.find? (eq k) with
    | some r => .ok ({ s with keys := r :: s.keys.filter (fun q => !eq k q) }, .found (some r))
    | none => .ok (s, .found none)
  | .access k =>
    match s.keys.find? (eq k) with
    | some r => .ok ({ s with keys := r :: s.keys.filter (fun q => !eq k q), last := false }, .elem r)
    | none => if s.cap ≠ 0 ∧ eq k k then .ok (s.push eq k, .elem k) else .ub
  | .remove k => .ok ({ s with keys := s.keys.filter (fun q => !eq k q), last := s.keys.any (eq k) }, .none)
  | .clear => .ok ({ s with keys := [], stale := 0 }, .none)
  | .setCapacity n => .ok ({ s with cap := n }.trim, .none)
  | .clip => .ok (s.trim, .none)

def LRU.run (eq : K → K → Bool) (s : LRU K) : List (Op K) → Res (LRU K × List (Out K))
  | [] => .ok (s, [])
  | op :: ops => do
    let (s, o) ← s.step eq op
    let (s, os) ← s.run eq ops
    .ok (s, o :: os)

def LRU.new (cap : Nat) : LRU K := ⟨cap, [], false, 0, [], 0⟩

end Spec

/-! ### Lemmas -/

/-- `==` is symmetric and transitive. -/
structure Per (eq : K → K → Bool) : Prop where
  symm : ∀ {a b}, eq a b = true → eq b a = true
  trans : ∀ {a b c}, eq a b = true → eq b c = true → eq a c = true

section
variable {eq : K → K → Bool} (he : Per eq)
include he

theorem Per.left {a b : K} (h : eq a b = true) : eq a a = true := he.trans h (he.symm h)

theorem pred_erase (b k e : K) : (!eq b e && eq k e) = (if eq b k then false else eq k e) := by
  by_cases h1 : eq b k = true
  · by_cases h2 : eq k e = true
    · simp [h1, he.trans h1 h2]
    · simp [h1, h2]
  · by_cases h2 : eq k e = true
    · have : eq b e = false := by
        rw [← Bool.not_eq_true]
        exact fun h => h1 (he.trans h (he.symm h2))
      simp [h1, h2, this]
    · simp [h1, h2]

theorem find?_erase {β : Type} (key : β → K) (l : List β) (b k : K) :
    (l.filter (fun e => !eq b (key e))).find? (fun e => eq k (key e)) =
      if eq b k then none else l.find? (fun e => eq k (key e)) := by
  rw [List.find?_filter]
  have : (fun e => (decide ((!eq b (key e)) = true ∧ eq k (key e) = true))) = fun e => if eq b k then false else eq k (key e) := by
    funext e
    rw [← pred_erase he b k (key e)]
    simp [Bool.decide_and]
  rw [this]
  by_cases h : eq b k = true
  · simp [h]
  · simp [h]

theorem lookup_erase (m : List (K × Nat)) (b k : K) :
    lookup eq (erase eq m b) k = if eq b k then none else lookup eq m k := by
  unfold lookup erase
  rw [find?_erase he Prod.fst]
  by_cases h : eq b k = true <;> simp [h]

theorem lookup_assign (m : List (K × Nat)) (k k' : K) (v : Nat) :
    lookup eq (assign eq m k v) k' = if eq k k' then some v else lookup eq m k' := by
  unfold assign
  by_cases hany : m.any (fun e => eq k e.1) = true
  · rw [if_pos hany]
    unfold lookup
    rw [List.find?_map]
    have hp : ((fun e : K × Nat => eq k' e.1) ∘ fun e => if eq k e.1 then (e.1, v) else e) = fun e => eq k' e.1 := by
      funext e
      by_cases h : eq k e.1 = true <;> simp [h]
    rw [hp]
    by_cases hk : eq k k' = true
    · rw [if_pos hk]
      obtain ⟨e, e1, e2⟩ := List.any_eq_true.1 hany
      have hs : ((m.find? fun e => eq k' e.1)).isSome := List.find?_isSome.2 ⟨e, e1, he.trans (he.symm hk) e2⟩
      obtain ⟨x, hx⟩ := Option.isSome_iff_exists.1 hs
      have := List.find?_some hx
      rw [hx]
      simp [he.trans hk this]
    · rw [if_neg hk]
      cases hx : m.find? fun e => eq k' e.1 with
      | none => rfl
      | some x =>
        have := List.find?_some hx
        have hn : ¬ eq k x.1 = true := fun h => hk (he.trans h (he.symm this))
        simp [hn]
  · rw [if_neg hany]
    unfold lookup
    rw [List.find?_cons]
    by_cases hk : eq k k' = true
    · simp [hk, he.symm hk]
    · have : ¬ eq k' k = true := fun h => hk (he.symm h)
      simp [hk, this]

/-- What always holds. -/
structure Inv (eq : K → K → Bool) (c : Cache K) : Prop where
  ids : (c.list.map Prod.fst).Nodup
  fresh : ∀ p ∈ c.list, p.1 < c.next
  keys : c.list.Pairwise fun p q => eq p.2 q.2 = false
  agree : ∀ k, lookup eq c.map k = (c.list.find? fun p => eq k p.2).map Prod.fst
  entries : c.map.Pairwise fun e f => eq e.1 f.1 = false

omit he in
theorem any_filter_length {β : Type} (key : β → K) (l : List β) (k : K) (h : l.any (fun e => eq k (key e)) = false) :
    l.filter (fun e => !eq k (key e)) = l := by
  rw [List.filter_eq_self]
  intro a ha
  have := List.any_eq_false.1 h a ha
  simpa using this

/-- Removing the elements with an equal key removes at most one. -/
theorem count_erase {β : Type} (key : β → K) (l : List β) (k : K) (h : l.Pairwise fun p q => eq (key p) (key q) = false) :
    (l.filter (fun e => !eq k (key e))).length + (l.any fun e => eq k (key e)).toNat = l.length := by
  induction l with
  | nil => rfl
  | cons a l ih =>
    rw [List.pairwise_cons] at h
    by_cases hk : eq k (key a) = true
    · have hno : l.any (fun e => eq k (key e)) = false := by
        rw [List.any_eq_false]
        intro e he' h2
        have h3 := h.1 e he'
        rw [he.trans (he.symm hk) h2] at h3
        cases h3
      rw [List.filter_cons_of_neg (by simp [hk]), any_filter_length key l k hno]
      simp [hk]
    · have := ih h.2
      rw [List.filter_cons_of_pos (by simp [hk])]
      simp only [List.any_cons, hk, Bool.false_or, List.length_cons]
      omega

theorem refl_of_any {β : Type} (key : β → K) (l : List β) (k : K) :
    (l.filter fun e => eq (key e) (key e)).any (fun e => eq k (key e)) = l.any fun e => eq k (key e) := by
  rw [Bool.eq_iff_iff, List.any_eq_true, List.any_eq_true]
  constructor
  · rintro ⟨e, h1, h2⟩
    exact ⟨e, (List.mem_filter.1 h1).1, h2⟩
  · rintro ⟨e, h1, h2⟩
    exact ⟨e, List.mem_filter.2 ⟨h1, he.left (he.symm h2)⟩, h2⟩

/-- The same for the elements with keys equal to themselves. -/
theorem count_erase_refl {β : Type} (key : β → K) (l : List β) (k : K) (h : l.Pairwise fun p q => eq (key p) (key q) = false) :
    ((l.filter (fun e => !eq k (key e))).filter fun e => eq (key e) (key e)).length + (l.any fun e => eq k (key e)).toNat =
      (l.filter fun e => eq (key e) (key e)).length := by
  rw [List.filter_comm, ← refl_of_any he key l k]
  exact count_erase he key _ k (h.filter _)

/-- Erasing the node found under a key. -/
theorem eraseP_eq (l : List (Nat × K)) (k : K) (p : Nat × K) (h1 : (l.map Prod.fst).Nodup)
    (h2 : l.Pairwise fun p q => eq p.2 q.2 = false) (hp : l.find? (fun q => eq k q.2) = some p) :
    l.eraseP (fun q => q.1 = p.1) = l.filter (fun q => !eq k q.2) := by
  induction l with
  | nil => cases hp
  | cons a l ih =>
    rw [List.pairwise_cons] at h2
    rw [List.map_cons, List.nodup_cons] at h1
    by_cases hk : eq k a.2 = true
    · rw [List.find?_cons_of_pos (by exact hk)] at hp
      injection hp with hp
      subst hp
      rw [List.eraseP_cons_of_pos (by simp), List.filter_cons_of_neg (by simp [hk]), any_filter_length Prod.snd l k]
      rw [List.any_eq_false]
      intro e he' h3
      have h4 := h2.1 e he'
      rw [he.trans (he.symm hk) h3] at h4
      cases h4
    · rw [List.find?_cons_of_neg (by exact hk)] at hp
      have hmem := List.mem_of_find?_eq_some hp
      have hne : a.1 ≠ p.1 := fun e => h1.1 (e ▸ List.mem_map_of_mem hmem)
      rw [List.eraseP_cons_of_neg (by simp [hne]), List.filter_cons_of_pos (by simp [hk]), ih h1.2 h2.2 hp]

omit he in
theorem find?_id (l : List (Nat × K)) (p : Nat × K) (h1 : (l.map Prod.fst).Nodup) (hp : p ∈ l) :
    l.find? (fun q => q.1 = p.1) = some p := by
  induction l with
  | nil => cases hp
  | cons a l ih =>
    rw [List.map_cons, List.nodup_cons] at h1
    rcases List.mem_cons.1 hp with rfl | hp
    · simp
    · have hne : a.1 ≠ p.1 := fun e => h1.1 (e ▸ List.mem_map_of_mem hp)
      rw [List.find?_cons_of_neg (by simp [hne])]
      exact ih h1.2 hp

theorem pairwise_erase {m : List (K × Nat)} (k : K) (h : m.Pairwise fun e f => eq e.1 f.1 = false) :
    (erase eq m k).Pairwise fun e f => eq e.1 f.1 = false := h.filter _

theorem pairwise_assign {m : List (K × Nat)} (k : K) (v : Nat) (h : m.Pairwise fun e f => eq e.1 f.1 = false) :
    (assign eq m k v).Pairwise fun e f => eq e.1 f.1 = false := by
  unfold assign
  by_cases hany : m.any (fun e => eq k e.1) = true
  · rw [if_pos hany, List.pairwise_map]
    refine h.imp fun {a b} hab => ?_
    by_cases h1 : eq k a.1 = true <;> by_cases h2 : eq k b.1 = true <;> simpa [h1, h2] using hab
  · rw [if_neg hany, List.pairwise_cons]
    refine ⟨fun e he' => ?_, h⟩
    rw [Bool.not_eq_true, List.any_eq_false] at hany
    simpa using hany e he'

omit he in
theorem assign_length (m : List (K × Nat)) (k : K) (v : Nat) :
    (assign eq m k v).length = m.length + (!m.any fun e => eq k e.1).toNat := by
  unfold assign
  by_cases hany : m.any (fun e => eq k e.1) = true
  · rw [if_pos hany]; simp [hany]
  · rw [if_neg hany]; simp [hany]

omit he in
theorem Inv.any {c : Cache K} (h : Inv eq c) (k : K) : (c.map.any fun e => eq k e.1) = c.list.any fun p => eq k p.2 := by
  have := congrArg Option.isSome (h.agree k)
  unfold lookup at this
  rw [Option.isSome_map, Option.isSome_map] at this
  rw [Bool.eq_iff_iff, List.any_eq_true, List.any_eq_true, ← List.find?_isSome, ← List.find?_isSome, this]

/-- Abstraction of an object. -/
structure Rel (eq : K → K → Bool) (c : Cache K) (s : Spec.LRU K) : Prop where
  inv : Inv eq c
  cap : c.maxElements = s.cap
  values : c.values = s.keys
  last : c.last = s.last
  clipped : c.clipped = s.clipped
  log : c.log = s.discarded
  count : c.map.length = (s.keys.filter fun k => eq k k).length + s.stale

omit he in
theorem filter_values (l : List (Nat × K)) (f : K → Bool) : (l.filter fun p => f p.2).map Prod.snd = (l.map Prod.snd).filter f := by
  rw [List.filter_map]; rfl

theorem rel_clipLoop : ∀ (n : Nat) (c : Cache K) (s : Spec.LRU K), c.list.length - c.maxElements = n → Rel eq c s →
    Rel eq (c.clipLoop eq) { s with
      keys := s.keys.take s.cap, clipped := s.clipped + (s.keys.drop s.cap).length,
      discarded := s.discarded ++ (s.keys.drop s.cap).reverse } ∧ (c.clipLoop eq).next = c.next := by
  intro n
  induction n with
  | zero =>
    intro c s hn h
    have hle : c.list.length ≤ c.maxElements := by omega
    have hs : c.clipStep eq = none := by
      unfold Cache.clipStep
      rw [if_neg (by omega)]
    have hl : s.keys.length ≤ s.cap := by rw [← h.values, ← h.cap]; simpa [Cache.values] using hle
    unfold Cache.clipLoop
    split
    · rw [List.take_of_length_le hl, List.drop_of_length_le hl]
      refine ⟨?_, rfl⟩
      simpa using h
    · next e => rw [hs] at e; cases e
  | succ n ih =>
    intro c s hn h
    have hgt : c.list.length > c.maxElements := by omega
    have hne : c.list ≠ [] := by intro e; rw [e] at hgt; simp at hgt
    obtain ⟨init, b, hib⟩ : ∃ init b, c.list = init ++ [b] := ⟨c.list.dropLast, c.list.getLast hne, (List.dropLast_append_getLast hne).symm⟩
    have hs : c.clipStep eq = some { c with
        map := erase eq c.map b.2, log := c.log ++ [b.2], list := init, clipped := c.clipped + 1 } := by
      unfold Cache.clipStep
      rw [if_pos hgt, hib]
      simp
    have hkeys : s.keys = init.map Prod.snd ++ [b.2] := by rw [← h.values]; simp [Cache.values, hib]
    have hinv := h.inv
    have hb : (c.list.any fun p => eq b.2 p.2) = eq b.2 b.2 := by
      rw [hib]
      by_cases e : eq b.2 b.2 = true
      · simp [e]
      · rw [Bool.not_eq_true] at e
        rw [e, List.any_eq_false]
        intro x _ hx
        rw [he.left hx] at e
        cases e
    have hk := hinv.keys
    rw [hib, List.pairwise_append] at hk
    have hrel : Rel eq { c with map := erase eq c.map b.2, log := c.log ++ [b.2], list := init, clipped := c.clipped + 1 }
        { s with keys := init.map Prod.snd, clipped := s.clipped + 1, discarded := s.discarded ++ [b.2] } := by
      refine ⟨⟨?_, ?_, hk.1, ?_, pairwise_erase he _ hinv.entries⟩, h.cap, rfl, h.last, ?_, ?_, ?_⟩
      · have := hinv.ids
        rw [hib, List.map_append] at this
        exact (List.nodup_append.1 this).1
      · intro p hp
        exact hinv.fresh p (by rw [hib]; exact List.mem_append_left _ hp)
      · intro k
        rw [lookup_erase he, hinv.agree k, hib, List.find?_append]
        by_cases e : eq b.2 k = true
        · have hno : init.find? (fun p => eq k p.2) = none := by
            rw [List.find?_eq_none]
            intro x hx h1
            have := hk.2.2 x hx b (by simp)
            rw [he.symm (he.trans e h1)] at this
            cases this
          simp [e, hno]
        · have e' : ¬ eq k b.2 = true := fun h => e (he.symm h)
          simp [e, e']
      · simp [h.clipped]
      · simp [h.log]
      · have h1 := count_erase he Prod.fst c.map b.2 hinv.entries
        rw [hinv.any, hb] at h1
        have h2 := h.count
        rw [hkeys, List.filter_append] at h2
        simp only [erase]
        by_cases e : eq b.2 b.2 = true
        · rw [e, Bool.toNat_true] at h1
          rw [List.filter_cons_of_pos (p := fun k => eq k k) e, List.length_append] at h2
          simp only [List.filter_nil, List.length_singleton] at h2
          omega
        · rw [Bool.not_eq_true] at e
          rw [e, Bool.toNat_false] at h1
          rw [List.filter_cons_of_neg (by simp [e]), List.filter_nil, List.append_nil] at h2
          omega
    have hcap : s.cap ≤ (init.map Prod.snd).length := by
      rw [← h.cap]; rw [hib] at hgt; simp at hgt ⊢; omega
    obtain ⟨r1, r2⟩ := ih _ _ (by simp only; rw [hib] at hn; simp at hn; omega) hrel
    unfold Cache.clipLoop
    split
    · next e => rw [hs] at e; cases e
    · next c' e =>
      rw [hs] at e
      injection e with e
      subst e
      refine ⟨?_, r2⟩
      rw [hkeys, List.take_append_of_le_length hcap, List.drop_append_of_le_length hcap]
      simp only at r1
      rw [List.length_append, List.length_singleton,
        show s.clipped + ((List.drop s.cap (init.map Prod.snd)).length + 1) = s.clipped + 1 + (List.drop s.cap (init.map Prod.snd)).length by omega,
        List.reverse_append, List.reverse_singleton, ← List.append_assoc]
      exact r1

theorem rel_clip {c : Cache K} {s : Spec.LRU K} (h : Rel eq c s) : Rel eq (c.clip eq) s.trim ∧ (c.clip eq).next = c.next := by
  have h0 : Rel eq { c with clipped := 0 } { s with clipped := 0 } :=
    ⟨⟨h.inv.ids, h.inv.fresh, h.inv.keys, h.inv.agree, h.inv.entries⟩, h.cap, h.values, h.last, rfl, h.log, h.count⟩
  obtain ⟨r1, r2⟩ := rel_clipLoop he _ _ _ rfl h0
  exact ⟨by simpa [Spec.LRU.trim, Cache.clip] using r1, r2⟩

omit he in
theorem rel_contains {c : Cache K} {s : Spec.LRU K} (h : Rel eq c s) (k : K) : c.contains eq k = s.keys.any (eq k) := by
  unfold Cache.contains
  rw [h.inv.agree, Option.isSome_map, ← h.values, Cache.values, List.any_map, Bool.eq_iff_iff, List.find?_isSome, List.any_eq_true]
  rfl

theorem rel_add {c : Cache K} {s : Spec.LRU K} (h : Rel eq c s) (k : K) :
    Rel eq (c.add eq k) (if s.keys.any (eq k) then { s with last := false } else s.push eq k) := by
  unfold Cache.add
  rw [rel_contains h]
  by_cases hc : s.keys.any (eq k) = true
  · simp only [hc, Bool.not_true, Bool.false_eq_true, if_false, if_true]
    exact ⟨⟨h.inv.ids, h.inv.fresh, h.inv.keys, h.inv.agree, h.inv.entries⟩, h.cap, h.values, rfl, h.clipped, h.log, h.count⟩
  · rw [Bool.not_eq_true] at hc
    have hc' : (c.list.any fun p => eq k p.2) = false := by
      rw [← hc, ← h.values, Cache.values, List.any_map]; rfl
    simp only [hc, Bool.not_false, if_true, Bool.false_eq_true, if_false]
    have h0 : Rel eq { c with list := (c.next, k) :: c.list, next := c.next + 1, map := assign eq c.map k c.next }
        { s with keys := k :: s.keys, stale := if eq k k then s.stale else s.stale + 1 } := by
      refine ⟨⟨?_, ?_, ?_, ?_, pairwise_assign he _ _ h.inv.entries⟩, h.cap, ?_, h.last, h.clipped, h.log, ?_⟩
      · rw [List.map_cons, List.nodup_cons]
        refine ⟨fun hm => ?_, h.inv.ids⟩
        obtain ⟨p, h1, h2⟩ := List.mem_map.1 hm
        have := h.inv.fresh p h1
        omega
      · intro p hp
        rcases List.mem_cons.1 hp with rfl | hp
        · exact Nat.lt_succ_self _
        · exact Nat.lt_succ_of_lt (h.inv.fresh p hp)
      · rw [List.pairwise_cons]
        refine ⟨fun p hp => ?_, h.inv.keys⟩
        simpa using List.any_eq_false.1 hc' p hp
      · intro k'
        rw [lookup_assign he, List.find?_cons]
        by_cases e : eq k k' = true
        · simp [e, he.symm e]
        · have e' : ¬ eq k' k = true := fun hh => e (he.symm hh)
          simp [e, e', h.inv.agree]
      · simp [Cache.values, ← h.values]
      · simp only
        rw [assign_length, h.inv.any, hc', h.count]
        by_cases e : eq k k = true
        · simp [e]; omega
        · simp [e]; omega
    have h1 := (rel_clip he h0).1
    exact ⟨⟨h1.inv.ids, h1.inv.fresh, h1.inv.keys, h1.inv.agree, h1.inv.entries⟩, h1.cap, h1.values, rfl, h1.clipped, h1.log, h1.count⟩

omit he in
theorem rel_find? {c : Cache K} {s : Spec.LRU K} (h : Rel eq c s) (k : K) :
    s.keys.find? (eq k) = (c.list.find? fun p => eq k p.2).map Prod.snd := by
  rw [← h.values, Cache.values, List.find?_map]; rfl

/-- `find` of a key that is held. -/
theorem rel_find {c : Cache K} {s : Spec.LRU K} (h : Rel eq c s) (k : K) :
    match s.keys.find? (eq k) with
    | some r => ∃ c' id, c.find eq k = .ok (c', some id) ∧ c'.deref id = .ok r ∧
        Rel eq c' { s with keys := r :: s.keys.filter (fun q => !eq k q) }
    | none => c.find eq k = .ok (c, none) := by
  rw [rel_find? h]
  unfold Cache.find
  rw [h.inv.agree]
  cases hf : c.list.find? (fun p => eq k p.2) with
  | none => rfl
  | some p =>
    have hmem := List.mem_of_find?_eq_some hf
    have hkp : eq k p.2 = true := by simpa using List.find?_some hf
    have hid := find?_id c.list p h.inv.ids hmem
    have hkeys : s.keys.filter (fun q => !eq k q) = (c.list.filter fun q => !eq k q.2).map Prod.snd := by
      rw [filter_values c.list (fun q => !eq k q), ← h.values]; rfl
    simp only [Option.map_some, Cache.moveToFront, hid]
    by_cases hh : c.list.head?.map Prod.fst = some p.1
    · simp only [if_pos hh, Res.bind_ok]
      cases hl : c.list with
      | nil => rw [hl] at hmem; cases hmem
      | cons a l =>
        rw [hl] at hh
        simp only [List.head?_cons, Option.map_some, Option.some.injEq] at hh
        have hap : a = p := by
          have hn := h.inv.ids
          rw [hl, List.map_cons, List.nodup_cons] at hn
          rw [hl] at hmem
          rcases List.mem_cons.1 hmem with e | e
          · exact e.symm
          · exact absurd (hh ▸ List.mem_map_of_mem e) hn.1
        subst hap
        refine ⟨c, a.1, rfl, ?_, ?_⟩
        · simp [Cache.deref, hl]
        · have hno : l.any (fun e => eq k e.2) = false := by
            have hk := h.inv.keys
            rw [hl, List.pairwise_cons] at hk
            rw [List.any_eq_false]
            intro e he' h3
            have h4 := hk.1 e he'
            rw [he.trans (he.symm hkp) h3] at h4
            cases h4
          have e : a.2 :: s.keys.filter (fun q => !eq k q) = s.keys := by
            rw [hkeys, hl, List.filter_cons_of_neg (by simp [hkp]), any_filter_length Prod.snd l k hno, ← h.values, Cache.values, hl]
            rfl
          rw [e]
          exact h
    · simp only [if_neg hh, Res.bind_ok, List.head?_cons]
      refine ⟨_, c.next, rfl, by simp [Cache.deref], ?_⟩
      have her := eraseP_eq he c.list k p h.inv.ids h.inv.keys hf
      rw [her]
      refine ⟨⟨?_, ?_, ?_, ?_, pairwise_assign he _ _ h.inv.entries⟩, h.cap, ?_, h.last, h.clipped, h.log, ?_⟩
      · rw [List.map_cons, List.nodup_cons]
        refine ⟨fun hm => ?_, ?_⟩
        · obtain ⟨q, h1, h2⟩ := List.mem_map.1 hm
          have := h.inv.fresh q (List.mem_filter.1 h1).1
          omega
        · exact h.inv.ids.sublist (List.filter_sublist.map _)
      · intro q hq
        rcases List.mem_cons.1 hq with rfl | hq
        · exact Nat.lt_succ_self _
        · exact Nat.lt_succ_of_lt (h.inv.fresh q (List.mem_filter.1 hq).1)
      · rw [List.pairwise_cons]
        refine ⟨fun q hq => ?_, h.inv.keys.filter _⟩
        have := (List.mem_filter.1 hq).2
        rw [← Bool.not_eq_true]
        intro h2
        rw [he.trans hkp h2] at this
        cases this
      · intro k'
        rw [lookup_assign he, List.find?_cons, h.inv.agree]
        by_cases e : eq p.2 k' = true
        · simp [e, he.symm e]
        · have e' : ¬ eq k' p.2 = true := fun hh => e (he.symm hh)
          have e2 : ¬ eq k k' = true := fun hh => e (he.trans (he.symm hkp) hh)
          simp only [e, e', if_false]
          rw [find?_erase he Prod.snd]
          simp [e2]
      · simp [Cache.values, hkeys]
      · simp only
        have h1 := count_erase_refl he Prod.snd c.list k h.inv.keys
        have h2 : (c.list.any fun e => eq k e.2) = true := List.any_eq_true.2 ⟨p, hmem, hkp⟩
        have h3 : (c.list.any fun e => eq p.2 e.2) = true := List.any_eq_true.2 ⟨p, hmem, he.left (he.symm hkp)⟩
        rw [assign_length, h.inv.any, h3, h.count, List.filter_cons_of_pos (p := fun k => eq k k) (he.left (he.symm hkp)), hkeys, ← h.values,
          Cache.values, ← filter_values _ (fun k => eq k k), ← filter_values _ (fun k => eq k k)]
        rw [h2] at h1
        simp at h1 ⊢
        omega

theorem rel_remove {c : Cache K} {s : Spec.LRU K} (h : Rel eq c s) (k : K) :
    ∃ c', c.remove eq k = .ok c' ∧ Rel eq c' { s with keys := s.keys.filter (fun q => !eq k q), last := s.keys.any (eq k) } := by
  have hany : s.keys.any (eq k) = c.list.any fun p => eq k p.2 := by
    rw [← h.values, Cache.values, List.any_map]; rfl
  have hkeys : s.keys.filter (fun q => !eq k q) = (c.list.filter fun q => !eq k q.2).map Prod.snd := by
    rw [filter_values c.list (fun q => !eq k q), ← h.values]; rfl
  unfold Cache.remove
  rw [h.inv.agree]
  cases hf : c.list.find? (fun p => eq k p.2) with
  | none =>
    have hno : (c.list.any fun p => eq k p.2) = false := by
      rw [List.any_eq_false]; exact List.find?_eq_none.1 hf
    refine ⟨_, rfl, ⟨h.inv.ids, h.inv.fresh, h.inv.keys, h.inv.agree, h.inv.entries⟩, h.cap, ?_, ?_, h.clipped, h.log, ?_⟩
    · rw [hkeys, any_filter_length Prod.snd _ k hno]; rfl
    · rw [hany, hno]
    · simp only
      rw [hkeys, any_filter_length Prod.snd _ k hno, h.count, ← h.values]; rfl
  | some p =>
    have hmem := List.mem_of_find?_eq_some hf
    have hkp : eq k p.2 = true := by simpa using List.find?_some hf
    have hid := find?_id c.list p h.inv.ids hmem
    have hyes : (c.list.any fun e => eq k e.2) = true := List.any_eq_true.2 ⟨p, hmem, hkp⟩
    simp only [Option.map_some, Cache.deref, hid, Res.bind_ok]
    refine ⟨_, rfl, ?_⟩
    rw [eraseP_eq he c.list k p h.inv.ids h.inv.keys hf]
    refine ⟨⟨?_, ?_, h.inv.keys.filter _, ?_, pairwise_erase he _ h.inv.entries⟩, h.cap, ?_, ?_, h.clipped, h.log, ?_⟩
    · exact h.inv.ids.sublist (List.filter_sublist.map _)
    · exact fun q hq => h.inv.fresh q (List.mem_filter.1 hq).1
    · intro k'
      rw [lookup_erase he, find?_erase he Prod.snd, h.inv.agree]
      by_cases e : eq k k' = true <;> simp [e]
    · rw [hkeys]; rfl
    · rw [hany, hyes]
    · simp only
      have h1 := count_erase_refl he Prod.snd c.list k h.inv.keys
      have h2 := count_erase he Prod.fst c.map k h.inv.entries
      have h3 := h.count
      rw [h.inv.any, hyes] at h2
      rw [hyes] at h1
      rw [← h.values, Cache.values, ← filter_values _ (fun k => eq k k)] at h3
      rw [hkeys, ← filter_values _ (fun k => eq k k), erase]
      simp at h1 h2 h3 ⊢
      omega

omit he in
theorem rel_last {c : Cache K} {s : Spec.LRU K} (h : Rel eq c s) (b : Bool) : Rel eq { c with last := b } { s with last := b } :=
  ⟨⟨h.inv.ids, h.inv.fresh, h.inv.keys, h.inv.agree, h.inv.entries⟩, h.cap, h.values, rfl, h.clipped, h.log, h.count⟩

/-- One call of the model and of the specification. -/
def SameStep (eq : K → K → Bool) (r : Res (Cache K × Out K)) (t : Res (Spec.LRU K × Out K)) : Prop :=
  match r, t with
  | .ok (c, o), .ok (s, o') => Rel eq c s ∧ o = o'
  | .ub, .ub => True
  | _, _ => False

theorem rel_step {c : Cache K} {s : Spec.LRU K} (h : Rel eq c s) (op : Op K) : SameStep eq (step eq c op) (s.step eq op) := by
  cases op with
  | add k =>
    have := rel_add he h k
    simp only [step, Spec.LRU.step]
    by_cases hc : s.keys.any (eq k) = true
    · rw [if_pos hc] at this ⊢; exact ⟨this, rfl⟩
    · rw [if_neg hc] at this ⊢; exact ⟨this, rfl⟩
  | find k =>
    have := rel_find he h k
    simp only [step, Spec.LRU.step]
    cases hf : s.keys.find? (eq k) with
    | none =>
      rw [hf] at this
      simp only at this
      simp only [this, Res.bind_ok]
      exact ⟨h, rfl⟩
    | some r =>
      rw [hf] at this
      obtain ⟨c', id, e1, e2, e3⟩ := this
      simp only [e1, Res.bind_ok, e2]
      exact ⟨e3, rfl⟩
  | access k =>
    simp only [step, Spec.LRU.step, Cache.access, rel_contains h]
    cases hf : s.keys.find? (eq k) with
    | some r =>
      have hany : s.keys.any (eq k) = true := List.any_eq_true.2 ⟨r, List.mem_of_find?_eq_some hf, List.find?_some hf⟩
      have := rel_find he (rel_last h false) k
      simp only at this
      rw [hf] at this
      obtain ⟨c', id, e1, e2, e3⟩ := this
      simp only [hany, Bool.not_true, Bool.false_eq_true, if_false, e1, Res.bind_ok, e2]
      exact ⟨e3, rfl⟩
    | none =>
      have hany : s.keys.any (eq k) = false := by
        rw [List.any_eq_false]; exact List.find?_eq_none.1 hf
      have ha := rel_add he h k
      simp only [hany, Bool.false_eq_true, if_false] at ha
      simp only [hany, Bool.not_false, if_true]
      have := rel_find he ha k
      have hno := List.any_eq_false.1 hany
      by_cases hc : s.cap ≠ 0 ∧ eq k k = true
      · rw [if_pos hc]
        obtain ⟨n, hn⟩ := Nat.exists_eq_succ_of_ne_zero hc.1
        have hk : (s.push eq k).keys = k :: s.keys.take n := by
          simp [Spec.LRU.push, Spec.LRU.trim, hn]
        have hfind : (s.push eq k).keys.find? (eq k) = some k := by
          rw [hk, List.find?_cons_of_pos hc.2]
        rw [hfind] at this
        obtain ⟨c', id, e1, e2, e3⟩ := this
        have e : k :: (s.push eq k).keys.filter (fun q => !eq k q) = (s.push eq k).keys := by
          rw [hk, List.filter_cons_of_neg (by simp [hc.2])]
          congr 1
          rw [List.filter_eq_self]
          intro q hq
          simpa using hno q (List.mem_of_mem_take hq)
        rw [e] at e3
        simp only [e1, Res.bind_ok, e2]
        exact ⟨e3, rfl⟩
      · rw [if_neg hc]
        have hfind : (s.push eq k).keys.find? (eq k) = none := by
          rw [List.find?_eq_none]
          intro q hq hq2
          have hq' : q ∈ (k :: s.keys).take s.cap := hq
          by_cases h0 : s.cap = 0
          · rw [h0] at hq'; cases hq'
          · rcases List.mem_cons.1 (List.mem_of_mem_take hq') with rfl | hq'
            · exact hc ⟨h0, hq2⟩
            · exact hno q hq' hq2
        rw [hfind] at this
        simp only at this
        simp only [this, Res.bind_ok, Res.bind_ub]
        trivial
  | remove k =>
    obtain ⟨c', e1, e2⟩ := rel_remove he h k
    simp only [step, Spec.LRU.step, e1, Res.bind_ok]
    exact ⟨e2, rfl⟩
  | clear =>
    exact ⟨⟨⟨List.nodup_nil, fun _ hp => by (cases hp), List.Pairwise.nil, fun _ => rfl, List.Pairwise.nil⟩, h.cap, rfl, h.last, h.clipped,
      h.log, rfl⟩, rfl⟩
  | setCapacity n =>
    refine ⟨(rel_clip he (c := { c with maxElements := n }) (s := { s with cap := n })
      ⟨⟨h.inv.ids, h.inv.fresh, h.inv.keys, h.inv.agree, h.inv.entries⟩, rfl, h.values, h.last, h.clipped, h.log, h.count⟩).1, rfl⟩
  | clip => exact ⟨(rel_clip he h).1, rfl⟩

end

end Verif.Cache.Unequal
