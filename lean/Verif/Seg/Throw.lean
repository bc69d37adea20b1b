import Verif.Seg.Shape

/-!
Segment trees whose transform throws (structures/segment_tree.h:178-203, 336-489).

* A computation `TM` works on the heap of range nodes and on a number `k` of operations that still succeed; the next one after
  them throws.  The outcome `none` is a C++ exception that leaves the call; the heap it leaves behind is part of the outcome, because
  the library catches nothing.
* The operations that may throw (`tick`): `transform.propagate`, `transform.apply`, `transform.join`, `transform.build`, the copy
  `value = node_range.value`, the default constructions of range values (`result`; `left, right`), `update_t{}` with its
  assignment, `_heap.resize` and `_heap.set_root`.
* Each of them is atomic: when it throws it has changed none of its arguments.  `criteria`, `operator bool` and the arithmetic on
  bounds do not throw.
-/

namespace Verif.Seg
open Spec Verif.Heap
set_option linter.unusedSectionVars false
variable {T V U : Type}

/-- A computation on the heap during which at most `k` operations succeed; `none` is an exception leaving it. -/
def TM (V U α : Type) : Type := Nat → List (RNode V U) → Res (Option (Nat × α) × List (RNode V U))

namespace TM
variable {α β : Type}

def bind (m : TM V U α) (f : α → TM V U β) : TM V U β := fun k h =>
  match m k h with
  | .ok (some (k', a), h') => f a k' h'
  | .ok (none, h') => .ok (none, h')
  | .exc e => .exc e
  | .ub => .ub

instance : Monad (TM V U) where
  pure a := fun k h => .ok (some (k, a), h)
  bind := bind

/-- An operation that may throw and does not touch the heap. -/
def tick : TM V U Unit := fun k h =>
  match k with
  | 0 => .ok (none, h)
  | k + 1 => .ok (some (k, ()), h)

/-- A reference to heap cell `i` (unchecked). -/
def cell (i : Nat) : TM V U (RNode V U) := fun k h => do
  let n ← rd h i
  .ok (some (k, n), h)

/-- A write through a reference to cell `i`. -/
def store (i : Nat) (n : RNode V U) : TM V U Unit := fun k h => .ok (some (k, ()), put h i n)

def undef : TM V U α := fun _ _ => .ub

end TM
open TM

/-- segment_tree.h:361-364 and 422-425: the marks of node `i` are propagated to its children `l` and `r`. -/
def pushDown (X : Transform T V U) (i : Nat) (n l r : RNode V U) : TM V U Unit :=
  if X.has n.lazy then do
    tick
    store i (X.propagate n l r).1
    store (leftOf n.index) (X.propagate n l r).2.1
    store (rightOf n.index) (X.propagate n l r).2.2
  else pure ()

/-- segment_tree.h:336-382 `_range_query`. -/
def rangeQueryT (X : Transform T V U) : Nat → Nat → Nat → Nat → TM V U V
  | 0, _, _, _ => undef
  | fuel + 1, start, stop, i => do
    let n ← cell i
    if (n.start = start ∧ stop = n.stop) ∧ (n.leaf = true ∨ X.has n.lazy = false) then do
      tick
      pure n.value
    else if n.leaf = false then do
      let center := n.center
      let li := leftOf n.index
      let ri := rightOf n.index
      let l ← cell li
      let r ← cell ri
      pushDown X i n l r
      let value ←
        (if start ≤ center ∧ stop > center then do
          tick
          let left ← rangeQueryT X fuel start (min stop center) li
          let right ← rangeQueryT X fuel (center + 1) stop ri
          tick
          pure (X.join left right)
        else if start ≤ center then rangeQueryT X fuel start stop li
        else if stop > center then rangeQueryT X fuel start stop ri
        else undef : TM V U V)
      let n ← cell i
      let l ← cell li
      let r ← cell ri
      tick
      store i { n with value := X.join l.value r.value }
      pure value
    else undef

/-- segment_tree.h:390-443 `_range_update`. -/
def rangeUpdateT (X : Transform T V U) (change : U) : Nat → Nat → Nat → Nat → TM V U V
  | 0, _, _, _ => undef
  | fuel + 1, start, stop, i => do
    let n ← cell i
    if (n.start = start ∧ stop = n.stop) ∧ (n.leaf = true ∨ X.has n.lazy = false ∨ X.criteria n = true) then
      if X.has change then do
        tick
        store i (X.apply n change)
        tick
        pure (X.apply n change).value
      else do
        tick
        pure n.value
    else if n.leaf = false then do
      let center := n.center
      let li := leftOf n.index
      let ri := rightOf n.index
      let l ← cell li
      let r ← cell ri
      pushDown X i n l r
      let value ←
        (if start ≤ center ∧ stop > center then do
          tick
          let left ← rangeUpdateT X change fuel start center li
          let right ← rangeUpdateT X change fuel (center + 1) stop ri
          tick
          pure (X.join left right)
        else if start ≤ center then rangeUpdateT X change fuel start stop li
        else if stop > center then rangeUpdateT X change fuel start stop ri
        else undef : TM V U V)
      let n ← cell i
      let l ← cell li
      let r ← cell ri
      tick
      store i { n with value := X.join l.value r.value }
      pure value
    else undef

/-- segment_tree.h:466-489 `build(input, heap[i])`: bounds and indices of both children, their marks one after the other, the
two recursive calls, the join. -/
def buildNodeT (X : Transform T V U) (input : List T) : Nat → Nat → TM V U Unit
  | 0, _ => undef
  | fuel + 1, i => do
    let n ← cell i
    if n.stop > n.start then do
      let li := leftOf n.index
      let ri := rightOf n.index
      let l ← cell li
      let r ← cell ri
      let center := n.center
      let l := { l with start := n.start, stop := center, index := li }
      let r := { r with start := center + 1, stop := n.stop, index := ri }
      store li l
      store ri r
      tick
      store li { l with lazy := X.none }
      tick
      store ri { r with lazy := X.none }
      buildNodeT X input fuel li
      buildNodeT X input fuel ri
      let n ← cell i
      let l ← cell li
      let r ← cell ri
      tick
      store i { n with value := X.join l.value r.value }
    else do
      let x ← (fun k h => do let x ← rd input n.start; .ok (some (k, x), h) : TM V U T)
      tick
      store i { n with value := X.build x n.start }

/-- Outcome of a call on a tree: the returned value unless an exception left the call, and the tree. -/
abbrev Out (V U α : Type) : Type := Option α × SegT V U

/-- segment_tree.h:178-187 `query`, during which at most `k` operations succeed; `notBuilt` is reported as such. -/
def queryT (X : Transform T V U) (k : Nat) (t : SegT V U) (a b : Nat) : Res (Out V U V) :=
  if t.built = false then .exc .notBuilt
  else
    let s := min (min a b) (lastPos t)
    let e := min (max a b) (lastPos t)
    match k with
    | 0 => .ok (none, t)
    | k + 1 => do
      let _ ← Heap.head t.heap
      let (r, h) ← rangeQueryT X t.heap.length s e 0 k t.heap
      .ok (r.map (·.2), { t with heap := h })

/-- segment_tree.h:195-203 `query_update`. -/
def queryUpdateT (X : Transform T V U) (k : Nat) (t : SegT V U) (a b : Nat) (change : U) : Res (Out V U V) :=
  if t.built = false then .exc .notBuilt
  else
    let s := min (min a b) (lastPos t)
    let e := min (max a b) (lastPos t)
    match k with
    | 0 => .ok (none, t)
    | k + 1 => do
      let _ ← Heap.head t.heap
      let (r, h) ← rangeUpdateT X change t.heap.length s e 0 k t.heap
      .ok (r.map (·.2), { t with heap := h })

/-- segment_tree.h:447-459 `build(input, number_of_elements)`: `_size` is assigned first and `_built_heap` last. -/
def buildT (X : Transform T V U) (need : Nat → Nat) (k : Nat) (t : SegT V U) (input : List T) (number : Nat) :
    Res (Out V U Unit) :=
  let size := if number < input.length then number else input.length
  let t := { t with size := size }
  if size ≠ 0 then
    let newSize := need size
    let grow := t.heap.length < newSize
    if grow ∧ k = 0 then .ok (none, t)
    else
      let k := if grow then k - 1 else k
      let h := if grow then resize (dfltNode X) t.heap newSize else t.heap
      match k with
      | 0 => .ok (none, { t with heap := h })
      | k + 1 => do
        let h ← wrAt h 0 ⟨0, size - 1, 0, X.dflt, X.none⟩
        let (r, h) ← buildNodeT X input h.length 0 k h
        match r with
        | none => .ok (none, { t with heap := h })
        | some _ => .ok (some (), ⟨size, true, h⟩)
  else .ok (some (), t)

/-- What the user sees of a call: a range value, nothing (a build), or an exception. -/
inductive Seen (V : Type) where
  | value (v : V)
  | done
  | threw
deriving DecidableEq, Repr

/-- A history of calls, each with the number of its operations that succeed; the caller catches the exceptions. -/
def runT (X : Transform T V U) (need : Nat → Nat) : SegT V U → List (Op T U × Nat) → Res (SegT V U × List (Seen V))
  | t, [] => .ok (t, [])
  | t, (.query a b, k) :: ops => do
    let (r, t) ← queryT X k t a b
    let (t, vs) ← runT X need t ops
    .ok (t, (match r with | some v => Seen.value v | none => Seen.threw) :: vs)
  | t, (.update a b u, k) :: ops => do
    let (r, t) ← queryUpdateT X k t a b u
    let (t, vs) ← runT X need t ops
    .ok (t, (match r with | some v => Seen.value v | none => Seen.threw) :: vs)
  | t, (.rebuild input number, k) :: ops => do
    let (r, t) ← buildT X need k t input number
    let (t, vs) ← runT X need t ops
    .ok (t, (match r with | some _ => Seen.done | none => Seen.threw) :: vs)

/-! ### Reasoning -/

/-- The computation ends without UB, in an outcome satisfying `Q`. -/
def Post {α : Type} (m : TM V U α) (k : Nat) (h : List (RNode V U))
    (Q : Option (Nat × α) → List (RNode V U) → Prop) : Prop := ∃ r h', m k h = .ok (r, h') ∧ Q r h'

theorem post_bind {α β : Type} {m : TM V U α} {f : α → TM V U β} {k h} {Q : Option (Nat × β) → List (RNode V U) → Prop}
    (H : Post m k h fun r h' => match r with | none => Q none h' | some (k', a) => Post (f a) k' h' Q) :
    Post (m >>= f) k h Q := by
  obtain ⟨r, h', e, H⟩ := H
  show Post (TM.bind m f) k h Q
  cases r with
  | none => exact ⟨none, h', by simp only [TM.bind, e], H⟩
  | some p =>
    obtain ⟨r2, h2, e2, H2⟩ := H
    exact ⟨r2, h2, by simp only [TM.bind, e]; exact e2, H2⟩

theorem post_pure {α : Type} {a : α} {k} {h : List (RNode V U)} {Q} (H : Q (some (k, a)) h) :
    Post (pure a : TM V U α) k h Q := ⟨_, _, rfl, H⟩

theorem post_tick {k} {h : List (RNode V U)} {Q} (h0 : Q none h) (h1 : ∀ k', Q (some (k', ())) h) :
    Post (tick : TM V U Unit) k h Q := by
  cases k with
  | zero => exact ⟨_, _, rfl, h0⟩
  | succ k => exact ⟨_, _, rfl, h1 k⟩

theorem post_cell {i k} {h : List (RNode V U)} {n Q} (hn : h[i]? = some n) (H : Q (some (k, n)) h) :
    Post (cell i : TM V U (RNode V U)) k h Q := ⟨_, _, by simp only [cell, rd, hn, Res.bind_ok], H⟩

theorem post_store {i k} {h : List (RNode V U)} {n Q} (H : Q (some (k, ())) (put h i n)) :
    Post (store i n : TM V U Unit) k h Q := ⟨_, _, rfl, H⟩

theorem Post.mono {α : Type} {m : TM V U α} {k h} {Q Q' : Option (Nat × α) → List (RNode V U) → Prop} (H : Post m k h Q)
    (imp : ∀ r h', Q r h' → Q' r h') : Post m k h Q' := by
  obtain ⟨r, h', e, q⟩ := H
  exact ⟨r, h', e, imp r h' q⟩

/-- The computation performs exactly `c` operations: with fewer it throws, otherwise it returns `v` and leaves `h'`. -/
def Runs {α : Type} (m : TM V U α) (h : List (RNode V U)) (c : Nat) (v : α) (h' : List (RNode V U)) : Prop :=
  (∀ k, m (c + k) h = .ok (some (k, v), h')) ∧ ∀ k, k < c → ∃ h'', m k h = .ok (none, h'')

theorem runs_bind {α β : Type} {m : TM V U α} {f : α → TM V U β} {h c v h' c2 v2 h2} (r1 : Runs m h c v h')
    (r2 : Runs (f v) h' c2 v2 h2) : Runs (m >>= f) h (c + c2) v2 h2 := by
  show Runs (TM.bind m f) h (c + c2) v2 h2
  refine ⟨fun k => ?_, fun k hk => ?_⟩
  · simp only [TM.bind]
    rw [Nat.add_assoc, r1.1]
    exact r2.1 k
  · simp only [TM.bind]
    by_cases hc : k < c
    · obtain ⟨h'', e⟩ := r1.2 k hc
      rw [e]; exact ⟨_, rfl⟩
    · obtain ⟨k', rfl⟩ := Nat.exists_eq_add_of_le (Nat.le_of_not_lt hc)
      rw [r1.1]
      exact r2.2 k' (by omega)

theorem runs_pure {α : Type} (a : α) (h : List (RNode V U)) : Runs (pure a : TM V U α) h 0 a h :=
  ⟨fun k => by rw [Nat.zero_add]; rfl, fun k hk => by omega⟩

theorem runs_tick (h : List (RNode V U)) : Runs (tick : TM V U Unit) h 1 () h :=
  ⟨fun k => by rw [Nat.add_comm]; rfl, fun k hk => by
    have : k = 0 := by omega
    subst this; exact ⟨_, rfl⟩⟩

theorem runs_cell {i} {h : List (RNode V U)} {n} (hn : rd h i = .ok n) : Runs (cell i : TM V U (RNode V U)) h 0 n h :=
  ⟨fun k => by rw [Nat.zero_add]; simp only [cell, hn, Res.bind_ok], fun k hk => by omega⟩

theorem runs_store (i n) (h : List (RNode V U)) : Runs (store i n : TM V U Unit) h 0 () (put h i n) :=
  ⟨fun k => by rw [Nat.zero_add]; rfl, fun k hk => by omega⟩

/-- Common form of `rangeQueryT` and `rangeUpdateT`: `stp` stops at a matching inner node, `fin` is done to the final nodes. -/
def walkT (X : Transform T V U) (stp : RNode V U → Bool) (fin : Option (RNode V U → RNode V U)) :
    Nat → Nat → Nat → Nat → TM V U V
  | 0, _, _, _ => undef
  | fuel + 1, start, stop, i => do
    let n ← cell i
    if (n.start = start ∧ stop = n.stop) ∧ (n.leaf = true ∨ stp n = true) then
      match fin with
      | some f => do
        tick
        store i (f n)
        tick
        pure (f n).value
      | none => do
        tick
        pure n.value
    else if n.leaf = false then do
      let center := n.center
      let li := leftOf n.index
      let ri := rightOf n.index
      let l ← cell li
      let r ← cell ri
      pushDown X i n l r
      let value ←
        (if start ≤ center ∧ stop > center then do
          tick
          let left ← walkT X stp fin fuel start center li
          let right ← walkT X stp fin fuel (center + 1) stop ri
          tick
          pure (X.join left right)
        else if start ≤ center then walkT X stp fin fuel start stop li
        else if stop > center then walkT X stp fin fuel start stop ri
        else undef : TM V U V)
      let n ← cell i
      let l ← cell li
      let r ← cell ri
      tick
      store i { n with value := X.join l.value r.value }
      pure value
    else undef

theorem bind_congr_TM {α β : Type} {m : TM V U α} {f g : α → TM V U β} (h : ∀ a, f a = g a) : (m >>= f) = (m >>= g) := by
  rw [show f = g from funext h]

theorem rangeQueryT_eq_walkT (X : Transform T V U) (fuel : Nat) : ∀ s e i,
    rangeQueryT X fuel s e i = walkT X (fun n => !X.has n.lazy) none fuel s e i := by
  induction fuel with
  | zero => intros; rfl
  | succ fuel ih =>
    intro s e i
    unfold rangeQueryT walkT
    apply bind_congr_TM
    intro n
    simp only [Bool.not_eq_true', ih]
    by_cases hc : s ≤ n.center ∧ e > n.center
    · rw [Nat.min_eq_right (by omega)]
    · simp only [if_neg hc]

theorem rangeUpdateT_eq_walkT (X : Transform T V U) (u : U) (fuel : Nat) : ∀ s e i,
    rangeUpdateT X u fuel s e i = walkT X (fun n => !X.has n.lazy || X.criteria n)
      (if X.has u then some fun n => X.apply n u else none) fuel s e i := by
  induction fuel with
  | zero => intros; rfl
  | succ fuel ih =>
    intro s e i
    unfold rangeUpdateT walkT
    apply bind_congr_TM
    intro n
    simp only [ih, Bool.or_eq_true, Bool.not_eq_true']
    by_cases hu : X.has u = true
    · simp only [hu, if_true]
    · simp only [hu]; rfl

/-- The action of `fin` without exceptions. -/
def finOf (fin : Option (RNode V U → RNode V U)) (n : RNode V U) : RNode V U :=
  match fin with
  | some f => f n
  | none => n

/-- Where the walk without exceptions completes, so does the walk that allows them, given enough operations. -/
theorem walkT_runs (X : Transform T V U) (stp : RNode V U → Bool) (fin : Option (RNode V U → RNode V U)) (fuel : Nat) :
    ∀ s e i h v h', walk X stp (finOf fin) fuel s e i h = .ok (v, h') →
    ∃ c, 0 < c ∧ Runs (walkT X stp fin fuel s e i) h c v h' := by
  induction fuel with
  | zero => intro s e i h v h' H; cases H
  | succ fuel ih =>
    intro s e i h v h' H
    unfold walk at H
    obtain ⟨n, hn, H⟩ := Res.bind_eq_ok.1 H
    unfold walkT
    have cn := runs_cell hn
    have hn' : h[i]? = some n := by
      unfold rd at hn; split at hn
      · next x hx => injection hn with hn; rw [hx, hn]
      · cases hn
    by_cases c1 : (n.start = s ∧ e = n.stop) ∧ (n.leaf = true ∨ stp n = true)
    · rw [if_pos c1] at H
      injection H with H
      cases fin with
      | none =>
        obtain ⟨rfl, rfl⟩ : n.value = v ∧ put h i n = h' := by simpa [finOf] using H
        rw [put_self hn']
        refine ⟨1, by omega, ?_⟩
        rw [show (1 : Nat) = 0 + (1 + 0) from rfl]
        refine runs_bind cn ?_
        simp only [if_pos c1]
        exact runs_bind (runs_tick _) (runs_pure _ _)
      | some f =>
        obtain ⟨rfl, rfl⟩ : (f n).value = v ∧ put h i (f n) = h' := by simpa [finOf] using H
        refine ⟨2, by omega, ?_⟩
        rw [show (2 : Nat) = 0 + (1 + (0 + (1 + 0))) from rfl]
        refine runs_bind cn ?_
        simp only [if_pos c1]
        exact runs_bind (runs_tick _) (runs_bind (runs_store _ _ _) (runs_bind (runs_tick _) (runs_pure _ _)))
    · rw [if_neg c1] at H
      by_cases c2 : n.leaf = false
      · rw [if_pos c2] at H
        obtain ⟨l, hl, H⟩ := Res.bind_eq_ok.1 H
        obtain ⟨r, hr, H⟩ := Res.bind_eq_ok.1 H
        simp only at H
        generalize eh : (if X.has n.lazy = true then put (put (put h i (X.propagate n l r).1) (leftOf n.index)
          (X.propagate n l r).2.1) (rightOf n.index) (X.propagate n l r).2.2 else h) = hh at H
        replace H : ((if s ≤ n.center ∧ e > n.center then do
              let (left, h) ← walk X stp (finOf fin) fuel s n.center (leftOf n.index) hh
              let (right, h) ← walk X stp (finOf fin) fuel (n.center + 1) e (rightOf n.index) h
              Res.ok (X.join left right, h)
            else if s ≤ n.center then walk X stp (finOf fin) fuel s e (leftOf n.index) hh
            else if e > n.center then walk X stp (finOf fin) fuel s e (rightOf n.index) hh
            else Res.ub : Res (V × List (RNode V U))) >>= fun p => do
              let n2 ← rd p.2 i
              let l2 ← rd p.2 (leftOf n.index)
              let r2 ← rd p.2 (rightOf n.index)
              Res.ok (p.1, put p.2 i { n2 with value := X.join l2.value r2.value })) = Res.ok (v, h') := by
          rw [← H]
          split
          · generalize walk X stp (finOf fin) fuel s n.center (leftOf n.index) hh = q1
            cases q1 with
            | ub => rfl
            | exc x => rfl
            | ok p =>
              simp only [Res.bind_ok]
              generalize walk X stp (finOf fin) fuel (n.center + 1) e (rightOf n.index) p.2 = q2
              cases q2 <;> rfl
          · split
            · rfl
            · split <;> rfl
        obtain ⟨⟨w, h2⟩, hw, H⟩ := Res.bind_eq_ok.1 H
        obtain ⟨n2, hn2, H⟩ := Res.bind_eq_ok.1 H
        obtain ⟨l2, hl2, H⟩ := Res.bind_eq_ok.1 H
        obtain ⟨r2, hr2, H⟩ := Res.bind_eq_ok.1 H
        injection H with H
        obtain ⟨rfl, rfl⟩ := Prod.mk.inj H
        have hp : ∃ c, Runs (pushDown X i n l r) h c () hh := by
          subst eh
          unfold pushDown
          by_cases c3 : X.has n.lazy = true
          · simp only [if_pos c3]
            exact ⟨_, runs_bind (runs_tick _) (runs_bind (runs_store _ _ _) (runs_bind (runs_store _ _ _) (runs_store _ _ _)))⟩
          · simp only [if_neg c3]
            exact ⟨0, runs_pure _ _⟩
        have hv : ∃ c, Runs (if s ≤ n.center ∧ e > n.center then do
              tick
              let left ← walkT X stp fin fuel s n.center (leftOf n.index)
              let right ← walkT X stp fin fuel (n.center + 1) e (rightOf n.index)
              tick
              pure (X.join left right)
            else if s ≤ n.center then walkT X stp fin fuel s e (leftOf n.index)
            else if e > n.center then walkT X stp fin fuel s e (rightOf n.index)
            else undef) hh c w h2 := by
          by_cases d1 : s ≤ n.center ∧ e > n.center
          · simp only [if_pos d1] at hw ⊢
            obtain ⟨⟨v1, g1⟩, q1, hw⟩ := Res.bind_eq_ok.1 hw
            obtain ⟨⟨v2, g2⟩, q2, hw⟩ := Res.bind_eq_ok.1 hw
            injection hw with hw
            obtain ⟨rfl, rfl⟩ := Prod.mk.inj hw
            obtain ⟨k1, -, r1⟩ := ih _ _ _ _ _ _ q1
            obtain ⟨k2, -, r2⟩ := ih _ _ _ _ _ _ q2
            exact ⟨_, runs_bind (runs_tick _) (runs_bind r1 (runs_bind r2 (runs_bind (runs_tick _) (runs_pure _ _))))⟩
          · rw [if_neg d1] at hw ⊢
            by_cases d2 : s ≤ n.center
            · rw [if_pos d2] at hw ⊢
              obtain ⟨k1, -, r1⟩ := ih _ _ _ _ _ _ hw
              exact ⟨_, r1⟩
            · rw [if_neg d2] at hw ⊢
              by_cases d3 : e > n.center
              · rw [if_pos d3] at hw ⊢
                obtain ⟨k1, -, r1⟩ := ih _ _ _ _ _ _ hw
                exact ⟨_, r1⟩
              · rw [if_neg d3] at hw; cases hw
        obtain ⟨k1, r1⟩ := hp
        obtain ⟨k2, r2⟩ := hv
        refine ⟨0 + (0 + (0 + (k1 + (k2 + (0 + (0 + (0 + (1 + (0 + 0))))))))), by omega, ?_⟩
        refine runs_bind cn ?_
        simp only [if_neg c1, if_pos c2]
        exact runs_bind (runs_cell hl) (runs_bind (runs_cell hr) (runs_bind r1 (runs_bind r2 (runs_bind (runs_cell hn2)
          (runs_bind (runs_cell hl2) (runs_bind (runs_cell hr2) (runs_bind (runs_tick _) (runs_bind (runs_store _ _ _)
          (runs_pure _ _)))))))))
      · rw [if_neg c2] at H; cases H

end Verif.Seg
