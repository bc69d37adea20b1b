import Verif.Heap.Props

/-!
heap.h with the arithmetic of `size_t`, the capacity of the vector, and elements or an allocator that throw (C188, C189, C190).

* The calls get a number `k` of operations that succeed; the next one throws.  The operations that may throw are the moves of elements
  and the growth of the vector.  An assignment that throws leaves its target unchanged.
* `std::vector::resize` has no effect when it throws (elements that can be copied or moved without exceptions).  It throws
  `std::length_error` beyond `max_size()` (`M`); beyond the capacity it moves the elements to new memory.
* An argument of type `T&&` is an object of the caller, or an element of the heap itself, named by its position.
* `gone v` is what a move leaves of an element `v`, `self v` what a move to itself makes of it.
-/

namespace Verif.Heap
variable {α : Type}

/-- A heap: the elements and the capacity of the vector. -/
structure V (α : Type) where
  els : List α
  cap : Nat
deriving DecidableEq, Repr

inductive Out where
  | ok | outOfRange | lengthError | thrown | ub
deriving DecidableEq, Repr

/-- The object that an rvalue reference refers to. -/
inductive Src (α : Type) where
  | own (v : α)
  | cell (q : Nat)

/-- The type of the elements: the value of `T{}` and the effect of moves; `M` is `max_size()`. -/
structure Ty (α : Type) where
  d : α
  gone : α → α
  self : α → α
  M : Nat

/-- `std::vector::resize(n)`: the heap, whether the elements are in new memory, the operations left, and the outcome. -/
def resizeV (ty : Ty α) (k : Nat) (h : V α) (n : Nat) : V α × Bool × Nat × Out :=
  if n ≤ h.els.length then (⟨h.els.take n, h.cap⟩, false, k, .ok)
  else if ty.M < n then (h, false, k, .lengthError)
  else
    match k with
    | 0 => (h, false, 0, .thrown)
    | k + 1 =>
      let els := h.els ++ List.replicate (n - h.els.length) ty.d
      if n ≤ h.cap then (⟨els, h.cap⟩, false, k, .ok)
      else (⟨els, max n (min ty.M (2 * h.els.length))⟩, true, k, .ok)

/-- `this->at(i) = std::forward<T>(value)`; `fresh` says that the elements have been moved to new memory since the call. -/
def assignV (ty : Ty α) (k : Nat) (h : V α) (fresh : Bool) (i : Nat) (src : Src α) : V α × Out :=
  if i < h.els.length then
    match src with
    | .own v => if k = 0 then (h, .thrown) else ({ h with els := h.els.set i v }, .ok)
    | .cell q =>
      if fresh then (h, .ub)
      else
        match h.els[q]? with
        | none => (h, .ub)
        | some v =>
          if k = 0 then (h, .thrown)
          else if q = i then ({ h with els := h.els.set i (ty.self v) }, .ok)
          else ({ h with els := (h.els.set i v).set q (ty.gone v) }, .ok)
  else (h, .outOfRange)

/-- heap.h:77-93, the common part of `set_left` and `set_right`. -/
def setChild (ty : Ty α) (k : Nat) (h : V α) (child : Nat) (src : Src α) : V α × Out :=
  if child > h.els.length then
    match resizeV ty k h (rightW child) with
    | (h, fresh, k, .ok) => assignV ty k h fresh child src
    | (h, _, _, o) => (h, o)
  else assignV ty k h false child src

/-- heap.h:77-84 `set_left`. -/
def setLeftV (ty : Ty α) (k : Nat) (h : V α) (pos : Nat) (src : Src α) : V α × Out := setChild ty k h (leftW pos) src

/-- heap.h:86-93 `set_right`. -/
def setRightV (ty : Ty α) (k : Nat) (h : V α) (pos : Nat) (src : Src α) : V α × Out := setChild ty k h (rightW pos) src

/-- heap.h:95-98 `set_root`. -/
def setRootV (ty : Ty α) (k : Nat) (h : V α) (src : Src α) : V α × Out := assignV ty k h false 0 src

/-- heap.h:47-55 `swap`. -/
def swapV (ty : Ty α) (k : Nat) (h : V α) (pos : Nat) : V α × Out :=
  let parent := parentOf pos
  if pos ≠ parent then
    match h.els[pos]? with
    | none => (h, .outOfRange)
    | some temp =>
      match k with
      | 0 => (h, .thrown)
      | k + 1 =>
        let h1 := { h with els := h.els.set pos (ty.gone temp) }
        match h1.els[parent]? with
        | none => (h1, .outOfRange)
        | some x =>
          match k with
          | 0 => (h1, .thrown)
          | k + 1 =>
            let h2 := { h1 with els := (h1.els.set pos x).set parent (ty.gone x) }
            match k with
            | 0 => (h2, .thrown)
            | _ + 1 => ({ h2 with els := h2.els.set parent temp }, .ok)
  else (h, .ok)

/-- heap.h:61-67 `swap_with_left_child`. -/
def swapLeftV (ty : Ty α) (k : Nat) (h : V α) (pos : Nat) : V α × Out :=
  if leftW pos < h.els.length then swapV ty k h (leftW pos) else (h, .ok)

/-- heap.h:105-111 `swap_with_right_child`. -/
def swapRightV (ty : Ty α) (k : Nat) (h : V α) (pos : Nat) : V α × Out :=
  if rightW pos < h.els.length then swapV ty k h (rightW pos) else (h, .ok)

inductive Call (α : Type) where
  | setLeft (pos : Nat) (v : α) | setRight (pos : Nat) (v : α) | setRoot (v : α)
  | swap (pos : Nat) | swapLeft (pos : Nat) | swapRight (pos : Nat)

def call (ty : Ty α) (k : Nat) (h : V α) : Call α → V α × Out
  | .setLeft pos v => setLeftV ty k h pos (.own v)
  | .setRight pos v => setRightV ty k h pos (.own v)
  | .setRoot v => setRootV ty k h (.own v)
  | .swap pos => swapV ty k h pos
  | .swapLeft pos => swapLeftV ty k h pos
  | .swapRight pos => swapRightV ty k h pos

/-- The position is a `size_t`. -/
def Call.Fits : Call α → Prop
  | .setLeft pos _ | .setRight pos _ | .swap pos | .swapLeft pos | .swapRight pos => pos < W
  | .setRoot _ => True

/-- A vector as it can be: not larger than its capacity, nor that than `max_size()`, which is below a quarter of the address space. -/
def V.Good (ty : Ty α) (h : V α) : Prop := h.els.length ≤ h.cap ∧ h.cap ≤ ty.M ∧ 4 * ty.M < W

/-! ### C188 -/

/-- C188 (full statement): a call that throws leaves the elements as they were. -/
def C188_statement : Prop :=
  ∀ (α : Type) (ty : Ty α) (k : Nat) (h : V α) (c : Call α), h.Good ty → c.Fits →
    (call ty k h c).2 ≠ .ok → (call ty k h c).1.els = h.els

/-- Numbers; a move leaves a number as it is. -/
def numbers : Ty Nat := ⟨0, id, id, 2 ^ 60⟩

/-- Elements that a move takes away, say strings; 0 is the empty one. -/
def strings : Ty Nat := ⟨0, fun _ => 0, fun _ => 0, 2 ^ 60⟩

/-- C188, counterexample: `set_left(2^62, 9)` cuts a heap of six elements down to four and throws `std::out_of_range`. -/
theorem C188_counterexample_cut :
    call numbers 100 ⟨[1, 2, 3, 4, 5, 6], 8⟩ (.setLeft (2 ^ 62) 9) = (⟨[1, 2, 3, 4], 8⟩, .outOfRange) := by decide +kernel

/-- C188, counterexample: when the second move of a `swap` throws, an element is lost. -/
theorem C188_counterexample_swap :
    call strings 1 ⟨[1, 2, 3], 3⟩ (.swap 1) = (⟨[1, 0, 3], 3⟩, .thrown) ∧
    call strings 2 ⟨[1, 2, 3], 3⟩ (.swap 1) = (⟨[0, 1, 3], 3⟩, .thrown) := by decide +kernel

theorem C188_counterexample : ¬ C188_statement := by
  intro h
  have := h Nat numbers 100 ⟨[1, 2, 3, 4, 5, 6], 8⟩ (.setLeft (2 ^ 62) 9) ⟨by decide, by decide, by decide⟩ (by decide : 2 ^ 62 < W)
  rw [C188_counterexample_cut] at this
  exact absurd (this (by decide)) (by decide)

/-- What a call of `set_left` or `set_right` that reaches the child position `c` may do. -/
inductive Spec.Effect (ty : Ty α) (k : Nat) (els : List α) (c : Nat) (v : α) : List α → Out → Prop
  /-- The child exists: it is assigned. -/
  | stored : c < els.length → 1 ≤ k → Effect ty k els c v (els.set c v) .ok
  | failed : c < els.length → k = 0 → Effect ty k els c v els .thrown
  /-- The child would be the next element. -/
  | next : c = els.length → Effect ty k els c v els .outOfRange
  /-- The heap grows to `2 c + 2` elements. -/
  | tooLong : els.length < c → 2 * c + 2 < W → ty.M < 2 * c + 2 → Effect ty k els c v els .lengthError
  | noGrowth : els.length < c → 2 * c + 2 ≤ ty.M → k = 0 → Effect ty k els c v els .thrown
  | grownOnly : els.length < c → 2 * c + 2 ≤ ty.M → k = 1 →
      Effect ty k els c v (els ++ List.replicate (2 * c + 2 - els.length) ty.d) .thrown
  | grown : els.length < c → 2 * c + 2 ≤ ty.M → 2 ≤ k →
      Effect ty k els c v ((els ++ List.replicate (2 * c + 2 - els.length) ty.d).set c v) .ok
  /-- `2 c + 2` is not representable: the heap is cut, or grows, to the size that is left over. -/
  | cut : W ≤ 2 * c + 2 → (2 * c + 2) % W ≤ els.length → Effect ty k els c v (els.take ((2 * c + 2) % W)) .outOfRange
  | wrapLong : W ≤ 2 * c + 2 → ty.M < (2 * c + 2) % W → Effect ty k els c v els .lengthError
  | wrapFailed : W ≤ 2 * c + 2 → els.length < (2 * c + 2) % W → (2 * c + 2) % W ≤ ty.M → k = 0 → Effect ty k els c v els .thrown
  | wrapGrown : W ≤ 2 * c + 2 → els.length < (2 * c + 2) % W → (2 * c + 2) % W ≤ ty.M → 1 ≤ k →
      Effect ty k els c v (els ++ List.replicate ((2 * c + 2) % W - els.length) ty.d) .outOfRange

open Spec

theorem leftW_lt (p : Nat) : leftW p < W := by
  unfold leftW
  by_cases h : p ≠ 0
  · rw [if_pos h]; exact Nat.mod_lt _ (by unfold W; omega)
  · rw [if_neg h]; unfold W; omega

theorem rightW_lt (p : Nat) : rightW p < W := by
  unfold rightW
  by_cases h : p ≠ 0
  · rw [if_pos h]; exact Nat.mod_lt _ (by unfold W; omega)
  · rw [if_neg h]; unfold W; omega

/-- The right child of a position, as computed. -/
theorem rightW_eq {c : Nat} (h : c < W) : rightW c = (2 * c + 2) % W ∧ (W ≤ 2 * c + 2 → (2 * c + 2) % W ≤ c) := by
  unfold rightW W at *
  constructor
  · by_cases h0 : c ≠ 0
    · rw [if_pos h0]; omega
    · rw [if_neg h0]; omega
  · omega

theorem setChild_effect (ty : Ty α) (k : Nat) (h : V α) (c : Nat) (v : α) (hg : h.Good ty) (hc : c < W) :
    Effect ty k h.els c v (setChild ty k h c (.own v)).1.els (setChild ty k h c (.own v)).2 := by
  obtain ⟨g1, g2, g3⟩ := hg
  unfold setChild
  by_cases h1 : c > h.els.length
  · rw [if_pos h1, (rightW_eq hc).1]
    by_cases h2 : 2 * c + 2 < W
    · rw [Nat.mod_eq_of_lt h2]
      unfold resizeV
      rw [if_neg (by omega)]
      by_cases h3 : ty.M < 2 * c + 2
      · rw [if_pos h3]
        exact .tooLong h1 h2 h3
      · rw [if_neg h3]
        cases k with
        | zero => exact .noGrowth h1 (by omega) rfl
        | succ k =>
          have hl : c < (h.els ++ List.replicate (2 * c + 2 - h.els.length) ty.d).length := by
            rw [List.length_append, List.length_replicate]; omega
          have key : ∀ (cap : Nat) (b : Bool),
              Effect ty (k + 1) h.els c v (assignV ty k ⟨h.els ++ List.replicate (2 * c + 2 - h.els.length) ty.d, cap⟩ b c (.own v)).1.els
                (assignV ty k ⟨h.els ++ List.replicate (2 * c + 2 - h.els.length) ty.d, cap⟩ b c (.own v)).2 := by
            intro cap b
            unfold assignV
            rw [if_pos hl]
            by_cases h4 : k = 0
            · subst h4
              exact .grownOnly h1 (by omega) rfl
            · simp only [if_neg h4]
              exact .grown h1 (by omega) (by omega)
          by_cases h5 : 2 * c + 2 ≤ h.cap
          · simp only [if_pos h5]; exact key _ _
          · simp only [if_neg h5]; exact key _ _
    · have hw : W ≤ 2 * c + 2 := by omega
      have hle := (rightW_eq hc).2 hw
      have e1 := @Effect.cut α ty k h.els c v hw
      have e2 := @Effect.wrapLong α ty k h.els c v hw
      have e3 := @Effect.wrapFailed α ty k h.els c v hw
      have e4 := @Effect.wrapGrown α ty k h.els c v hw
      generalize (2 * c + 2) % W = n at hle e1 e2 e3 e4 ⊢
      have out : ∀ (k : Nat) (g : V α) (b : Bool), g.els.length = n → assignV ty k g b c (.own v) = (g, .outOfRange) := by
        intro k g b hl
        unfold assignV
        rw [if_neg (by omega)]
      unfold resizeV
      by_cases h3 : n ≤ h.els.length
      · rw [if_pos h3]
        simp only
        rw [out _ _ _ (by rw [List.length_take]; omega)]
        exact e1 h3
      · rw [if_neg h3]
        by_cases h4 : ty.M < n
        · rw [if_pos h4]
          exact e2 h4
        · rw [if_neg h4]
          cases k with
          | zero => exact e3 (by omega) (by omega) rfl
          | succ k =>
            have hl : (h.els ++ List.replicate (n - h.els.length) ty.d).length = n := by
              rw [List.length_append, List.length_replicate]; omega
            by_cases h5 : n ≤ h.cap
            · simp only [if_pos h5]
              rw [out _ _ _ hl]
              exact e4 (by omega) (by omega) (by omega)
            · simp only [if_neg h5]
              rw [out _ _ _ hl]
              exact e4 (by omega) (by omega) (by omega)
  · rw [if_neg h1]
    unfold assignV
    by_cases h2 : c < h.els.length
    · rw [if_pos h2]
      by_cases h3 : k = 0
      · simp only [if_pos h3]; exact .failed h2 h3
      · simp only [if_neg h3]; exact .stored h2 (by omega)
    · rw [if_neg h2]
      exact .next (by omega)

/-- What a `swap` with the parent may do to the elements: exchange them, or lose one when a move throws. -/
inductive Spec.Swapped (ty : Ty α) (k : Nat) (els : List α) (pos : Nat) : List α → Out → Prop
  | root : pos = 0 → Swapped ty k els pos els .ok
  | outside : pos ≠ 0 → els.length ≤ pos → Swapped ty k els pos els .outOfRange
  | none {x : α} : pos ≠ 0 → els[pos]? = some x → k = 0 → Swapped ty k els pos els .thrown
  | first {x : α} : pos ≠ 0 → els[pos]? = some x → k = 1 → Swapped ty k els pos (els.set pos (ty.gone x)) .thrown
  | second {x y : α} : pos ≠ 0 → els[pos]? = some x → els[(pos - 1) / 2]? = some y → k = 2 →
      Swapped ty k els pos ((els.set pos y).set ((pos - 1) / 2) (ty.gone y)) .thrown
  | done {x y : α} : pos ≠ 0 → els[pos]? = some x → els[(pos - 1) / 2]? = some y → 3 ≤ k →
      Swapped ty k els pos ((els.set pos y).set ((pos - 1) / 2) x) .ok

theorem swapV_swapped (ty : Ty α) (k : Nat) (h : V α) (pos : Nat) :
    Swapped ty k h.els pos (swapV ty k h pos).1.els (swapV ty k h pos).2 := by
  by_cases h0 : pos = 0
  · subst h0
    exact .root rfl
  · have hp : parentOf pos = (pos - 1) / 2 := (C61_positions pos).2.2
    unfold swapV
    simp only [hp]
    rw [if_pos (by omega)]
    by_cases hl : pos < h.els.length
    · have e : h.els[pos]? = some h.els[pos] := List.getElem?_eq_getElem hl
      have e' : h.els[(pos - 1) / 2]? = some h.els[(pos - 1) / 2] := List.getElem?_eq_getElem (by omega)
      simp only [e]
      match k with
      | 0 => exact .none h0 e rfl
      | k + 1 =>
        have e2 : (h.els.set pos (ty.gone h.els[pos]))[(pos - 1) / 2]? = some h.els[(pos - 1) / 2] := by
          rw [List.getElem?_set_ne (by omega), e']
        simp only [e2]
        match k with
        | 0 => exact .first h0 e rfl
        | k + 1 =>
          simp only [List.set_set]
          match k with
          | 0 => exact .second h0 e e' rfl
          | k + 1 => exact .done h0 e e' (by omega)
    · have e : h.els[pos]? = none := List.getElem?_eq_none (by omega)
      simp only [e]
      exact .outside h0 (by omega)

/-- **C188** exactly: what each call does to the elements, for every number `k` of operations that succeed. -/
theorem C188_exact (ty : Ty α) (k : Nat) (h : V α) (hg : h.Good ty) (pos : Nat) (v : α) :
    Effect ty k h.els (leftW pos) v (call ty k h (.setLeft pos v)).1.els (call ty k h (.setLeft pos v)).2 ∧
    Effect ty k h.els (rightW pos) v (call ty k h (.setRight pos v)).1.els (call ty k h (.setRight pos v)).2 ∧
    Swapped ty k h.els pos (call ty k h (.swap pos)).1.els (call ty k h (.swap pos)).2 :=
  ⟨setChild_effect ty k h _ v hg (leftW_lt pos), setChild_effect ty k h _ v hg (rightW_lt pos), swapV_swapped ty k h pos⟩

/-- The positions of the children are those of a heap that fits into memory. -/
def Call.Near : Call α → Prop
  | .setLeft pos _ | .setRight pos _ => 4 * pos + 6 < W
  | _ => True

/-- C188 (part): nothing happens when a call throws at its first operation, such as the growth of the vector, or because of its
arguments, provided that the positions are those of a heap that fits into memory.  Missing: exceptions of later moves, and positions of
a quarter of the address space or more. -/
theorem C188_partial (ty : Ty α) (k : Nat) (h : V α) (hg : h.Good ty) (c : Call α) (hk : k = 0 ∨ 3 ≤ k) (hc : c.Near) :
    (call ty k h c).2 ≠ .ok → (call ty k h c).1.els = h.els := by
  have small : ∀ c v (a : List α) o, 2 * c + 2 < W → Effect ty k h.els c v a o → o ≠ .ok → a = h.els := by
    intro c v a o hc he ho
    cases he <;> first | rfl | exact absurd rfl ho | omega
  have sw : ∀ p (a : List α) o, Swapped ty k h.els p a o → o ≠ .ok → a = h.els := by
    intro p a o he ho
    cases he <;> first | rfl | exact absurd rfl ho | omega
  cases c with
  | setLeft pos v =>
    unfold Call.Near at hc
    have e := (C61_no_wrap pos (by omega)).1
    have e2 := (C61_positions pos).1
    exact small _ v _ _ (by omega) (setChild_effect ty k h _ v hg (leftW_lt pos))
  | setRight pos v =>
    unfold Call.Near at hc
    have e := (C61_no_wrap pos (by omega)).2
    have e2 := (C61_positions pos).2.1
    exact small _ v _ _ (by omega) (setChild_effect ty k h _ v hg (rightW_lt pos))
  | setRoot v =>
    show (assignV ty k h false 0 (.own v)).2 ≠ .ok → (assignV ty k h false 0 (.own v)).1.els = h.els
    unfold assignV
    by_cases h0 : 0 < h.els.length
    · rw [if_pos h0]
      by_cases hk0 : k = 0
      · simp [hk0]
      · simp [hk0]
    · rw [if_neg h0]; intro _; rfl
  | swap pos => exact sw _ _ _ (swapV_swapped ty k h pos)
  | swapLeft pos =>
    unfold call swapLeftV
    by_cases hl : leftW pos < h.els.length
    · simp only [if_pos hl]; exact sw _ _ _ (swapV_swapped ty k h _)
    · simp only [if_neg hl]; simp
  | swapRight pos =>
    unfold call swapRightV
    by_cases hl : rightW pos < h.els.length
    · simp only [if_pos hl]; exact sw _ _ _ (swapV_swapped ty k h _)
    · simp only [if_neg hl]; simp

example : call numbers 2 ⟨[5], 1⟩ (.setLeft 1 7) = (⟨[5, 0, 0, 7, 0, 0, 0, 0], 8⟩, .ok) ∧
    call numbers 2 ⟨[5], 1⟩ (.setLeft 0 7) = (⟨[5], 1⟩, .outOfRange) ∧
    call numbers 2 ⟨[5], 1⟩ (.setLeft (2 ^ 60) 7) = (⟨[5], 1⟩, .lengthError) ∧
    call numbers 0 ⟨[5], 1⟩ (.setLeft 1 7) = (⟨[5], 1⟩, .thrown) := by decide +kernel

/-! ### C189 -/

/-- C189 (full statement): an argument that is an element of the heap is stored as any other value would be. -/
def C189_statement : Prop :=
  ∀ (α : Type) (ty : Ty α) (h : V α) (pos q : Nat) (v : α), h.Good ty → 4 * pos + 6 < W → h.els[q]? = some v →
    (setLeftV ty 2 h pos (.cell q)).2 = (setLeftV ty 2 h pos (.own v)).2 ∧
    ((setLeftV ty 2 h pos (.own v)).2 = .ok → (setLeftV ty 2 h pos (.cell q)).1.els[leftW pos]? = some v)

/-- C189, counterexample: the vector grows, and the reference to the root dangles. -/
theorem C189_counterexample : ¬ C189_statement := by
  intro h
  have := (h Nat numbers ⟨[5], 1⟩ 1 0 5 ⟨by decide, by decide, by decide⟩ (by decide) rfl).1
  revert this
  decide +kernel

/-- C189, counterexample: a child that is assigned to itself is lost, if a move to itself loses an element. -/
theorem C189_counterexample_self : setLeftV strings 2 ⟨[5, 6], 2⟩ 0 (.cell 1) = (⟨[5, 0], 2⟩, .ok) := by decide +kernel

/-- **C189** exactly, for the child position `c` of `set_left` and `set_right` (and for 0 of `set_root`), an element `v` at `q`, and no
exceptions of the elements.  If the vector has to move to new memory, the call is undefined.  Otherwise it does what it does for any
other value, except that the element at `q` is moved from, which is the new child itself if `q = c`. -/
theorem C189_exact (ty : Ty α) (h : V α) (c q : Nat) (v : α) (hg : h.Good ty) (hc : 2 * c + 2 < W) (hq : h.els[q]? = some v) :
    (h.els.length < c ∧ h.cap < 2 * c + 2 ∧ 2 * c + 2 ≤ ty.M → (setChild ty 2 h c (.cell q)).2 = .ub) ∧
    (¬ (h.els.length < c ∧ h.cap < 2 * c + 2 ∧ 2 * c + 2 ≤ ty.M) →
      (setChild ty 2 h c (.cell q)).2 = (setChild ty 2 h c (.own v)).2 ∧
      (setChild ty 2 h c (.cell q)).1.els =
        if (setChild ty 2 h c (.own v)).2 = .ok then
          (setChild ty 2 h c (.own v)).1.els.set q (if q = c then ty.self v else ty.gone v)
        else (setChild ty 2 h c (.own v)).1.els) := by
  obtain ⟨g1, g2, g3⟩ := hg
  have hql : q < h.els.length := by
    by_cases a : q < h.els.length
    · exact a
    · rw [List.getElem?_eq_none (by omega)] at hq; cases hq
  have hr : rightW c = 2 * c + 2 := by rw [(rightW_eq (by omega)).1, Nat.mod_eq_of_lt hc]
  have asg : ∀ (g : V α) (k : Nat), k ≠ 0 → g.els[q]? = some v →
      (assignV ty k g false c (.cell q)).2 = (assignV ty k g false c (.own v)).2 ∧
      (assignV ty k g false c (.cell q)).1.els =
        if (assignV ty k g false c (.own v)).2 = .ok then
          (assignV ty k g false c (.own v)).1.els.set q (if q = c then ty.self v else ty.gone v)
        else (assignV ty k g false c (.own v)).1.els := by
    intro g k hk hg
    unfold assignV
    by_cases a : c < g.els.length
    · simp only [if_pos a, Bool.false_eq_true, if_false, hg, if_neg hk]
      by_cases b : q = c
      · simp only [b, List.set_set, if_true]; simp
      · simp only [if_neg b, if_true]; simp
    · simp only [if_neg a]; simp
  unfold setChild
  by_cases h1 : c > h.els.length
  · simp only [if_pos h1, hr]
    unfold resizeV
    rw [if_neg (by omega)]
    by_cases h2 : ty.M < 2 * c + 2
    · simp only [if_pos h2]
      exact ⟨fun h => by omega, fun _ => by simp⟩
    · have hl : c < (h.els ++ List.replicate (2 * c + 2 - h.els.length) ty.d).length := by
        rw [List.length_append, List.length_replicate]; omega
      simp only [if_neg h2]
      by_cases h3 : 2 * c + 2 ≤ h.cap
      · simp only [if_pos h3]
        refine ⟨fun h => by omega, fun _ => asg _ 1 (by omega) ?_⟩
        simp only
        rw [List.getElem?_append_left hql, hq]
      · simp only [if_neg h3]
        refine ⟨fun _ => ?_, fun hn => absurd ⟨h1, by omega, by omega⟩ hn⟩
        unfold assignV
        simp only [if_pos hl, if_true]
  · simp only [if_neg h1]
    exact ⟨fun h => by omega, fun _ => asg h 2 (by omega) hq⟩

/-- C189 (part): with enough capacity, and elements that survive a move to themselves, the child holds the value that the argument had.
Missing: the growth beyond the capacity. -/
theorem C189_partial (ty : Ty α) (h : V α) (c q : Nat) (v : α) (hg : h.Good ty) (hc : 2 * c + 2 ≤ h.cap) (hq : h.els[q]? = some v)
    (hs : ty.self v = v) (hne : c ≠ h.els.length) :
    (setChild ty 2 h c (.cell q)).2 = .ok ∧ (setChild ty 2 h c (.cell q)).1.els[c]? = some v := by
  have hcW : 2 * c + 2 < W := by have := hg.2.1; have := hg.2.2; omega
  obtain ⟨e1, e2⟩ := (C189_exact ty h c q v hg hcW hq).2 (by omega)
  have he := setChild_effect ty 2 h c v hg (by omega)
  have key : (setChild ty 2 h c (.own v)).2 = .ok ∧ (setChild ty 2 h c (.own v)).1.els[c]? = some v := by
    generalize (setChild ty 2 h c (.own v)).1.els = a at he ⊢
    generalize (setChild ty 2 h c (.own v)).2 = o at he ⊢
    have hM := hg.2.1
    cases he with
    | stored h1 _ => exact ⟨rfl, by rw [List.getElem?_set_self h1]⟩
    | grown h1 _ _ =>
      refine ⟨rfl, by rw [List.getElem?_set_self (by rw [List.length_append, List.length_replicate]; omega)]⟩
    | _ => omega
  refine ⟨by rw [e1, key.1], ?_⟩
  rw [e2, if_pos key.1]
  by_cases hqc : q = c
  · subst hqc
    have hl : q < (setChild ty 2 h q (.own v)).1.els.length := by
      by_cases a : q < (setChild ty 2 h q (.own v)).1.els.length
      · exact a
      · have := key.2; rw [List.getElem?_eq_none (by omega)] at this; cases this
    rw [if_pos rfl, hs, List.getElem?_set_self hl]
  · rw [List.getElem?_set_ne hqc, key.2]

example : setLeftV strings 2 ⟨[5, 6], 20⟩ 1 (.cell 0) = (⟨[0, 6, 0, 5, 0, 0, 0, 0], 20⟩, .ok) := by decide +kernel

/-! ### C190 -/

/-- C190 (full statement): on an empty heap, `head()` and `tail()` are defined: they throw. -/
def C190_statement : Prop := ∀ (α : Type) (h : List α), head h ≠ .ub ∧ headConst h ≠ .ub ∧ tail h ≠ .ub

/-- C190, counterexample: only the `head()` of a heap that is not `const` is checked. -/
theorem C190_counterexample : ¬ C190_statement := fun h => (h Nat []).2.1 rfl

/-- **C190** exactly: the `head()` of a heap that is not `const` is always defined; the others are if and only if there are elements.
Then they are the first and the last element; the first one is at the root. -/
theorem C190_exact (h : List α) :
    head h = (match h.head? with | some x => .ok x | none => .exc .outOfRange) ∧
    headConst h = (match h.head? with | some x => .ok x | none => .ub) ∧
    tail h = (match h.getLast? with | some x => .ok x | none => .ub) ∧
    (headConst h = .ub ↔ h = []) ∧ (tail h = .ub ↔ h = []) := by
  cases h with
  | nil => refine ⟨rfl, rfl, rfl, ⟨fun _ => rfl, fun _ => rfl⟩, ⟨fun _ => rfl, fun _ => rfl⟩⟩
  | cons x h =>
    have e : (x :: h).getLast? = some ((x :: h).getLast (by simp)) := by simp [List.getLast?_eq_some_getLast]
    refine ⟨rfl, rfl, rfl, ⟨(fun h => by cases h), (fun h => by cases h)⟩, ⟨fun h => ?_, (fun h => by cases h)⟩⟩
    unfold tail at h
    rw [e] at h
    cases h

/-- C190 (part): on a heap with elements.  Missing: the empty heap. -/
theorem C190_partial (h : List α) (hne : h ≠ []) : head h ≠ .ub ∧ headConst h ≠ .ub ∧ tail h ≠ .ub := by
  obtain ⟨e1, -, -, e2, e3⟩ := C190_exact h
  refine ⟨?_, fun h => hne (e2.1 h), fun h => hne (e3.1 h)⟩
  rw [e1]
  cases h.head? <;> (intro h; cases h)

example : head [3, 4] = .ok 3 ∧ headConst [3, 4] = .ok 3 ∧ tail [3, 4] = .ok 4 := by decide

end Verif.Heap
